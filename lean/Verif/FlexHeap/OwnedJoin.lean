import Verif.FlexHeap.Owned

/-!
# `append` and `prepend` of transients, and whose nodes are whose
-/

namespace FlexHeap
open Mm Rrb VecHeap
open VecHeap.Spec (SKd)

variable {T β δ : Type} {c : Cfg} {E : Env Dat T} {er et : Nat} {w w' w1 : World T} {F F' : List Nat} {G : List OK} {i j k t : Nat} {g g' : OK} {S : Nat → Prop} {K : List SKd} {b : Bin}

/-- the invariant for a world -/
def OwnW (er et : Nat) (w : World T) (F : List Nat) (G : List OK) : Prop := w.objs = G.map Prod.fst ∧ OwnG er et w.st.mem w.next F G

/-- and for kinds of objects -/
def Own (er et : Nat) (w : World T) (K : List SKd) : Prop := ∃ G, K = G.map Prod.snd ∧ OwnW er et w [] G

theorem OwnW.get (h : OwnW er et w F G) (hi : G[i]? = some g) : w.objs[i]? = some g.1 := by rw [h.1, List.getElem?_map, hi]; rfl

theorem OwnW.of_get (h : OwnW er et w F G) {o : Obj} (hi : w.objs[i]? = some o) : ∃ s, G[i]? = some (o, s) := by
  rw [h.1, List.getElem?_map] at hi
  obtain ⟨g, h1, rfl⟩ := Option.map_eq_some_iff.mp hi
  exact ⟨g.2, h1⟩

theorem bind_ok {x : WM T β} {f : β → WM T δ} {d : δ} (h : x.bind f w = .ok w' d) : ∃ w1 b, x w = .ok w1 b ∧ f b w1 = .ok w' d := by
  unfold WM.bind at h
  cases h1 : x w with
  | ok w1 b => rw [h1] at h; exact ⟨w1, b, rfl, h⟩
  | thrown => rw [h1] at h; cases h
  | ub => rw [h1] at h; cases h

theorem lift_ok {x : HM T β} {d : β} (h : lift x w = .ok w' d) : ∃ s, x w.st = .ok s d ∧ w' = { w with st := s } := by
  unfold lift at h
  cases h1 : x w.st with
  | ok s b => rw [h1] at h; cases h; exact ⟨s, rfl, rfl⟩
  | thrown => rw [h1] at h; cases h
  | ub => rw [h1] at h; cases h

theorem own_newTok (h : OwnW er et w F G) (hw : newTok E w = .ok w1 t) : OwnW er et w1 (t :: F) G ∧ t = w.next ∧ w1.next = t + 1 ∧ w1.st.mem = w.st.mem := by
  obtain ⟨w2, _, h2, h3⟩ := bind_ok hw
  obtain ⟨s, h4, rfl⟩ := lift_ok h2
  have hm : s.mem = w.st.mem := by
    split at h4
    · have := gr_tick (A := fun _ => True) (s := w.st)
      unfold tick at h4
      cases hf : w.st.fault with
      | none => rw [hf] at h4; cases h4; rfl
      | some kn =>
        obtain ⟨k', n⟩ := kn
        rw [hf] at h4
        simp only at h4
        split at h4
        · cases n with
          | zero => cases h4
          | succ n => cases h4; rfl
        · cases h4; rfl
    · cases h4; rfl
  cases h3
  refine ⟨⟨h.1, ?_⟩, rfl, rfl, hm⟩
  change OwnG er et s.mem (w.next + 1) _ _
  rw [hm]
  exact h.2.bump

theorem modify_map {f : Obj → Obj} {l : List Obj} (h : l = G.map Prod.fst) (hi : G[i]? = some g) : l.modify i f = (G.set i (f g.1, g.2)).map Prod.fst := by
  have h1 : l[i]? = some g.1 := by rw [h, List.getElem?_map, hi]; rfl
  rw [modify_set h1, h, List.map_set]

theorem own_setOwner (h : OwnW er et w F G) (hi : G[i]? = some g) (ht : t ∈ F) (hF : ∀ x ∈ F', x ∈ F ∧ x ≠ t) (hw : setOwner i t w = .ok w1 ()) :
    OwnW er et w1 F' (G.set i ({ g.1 with tok := t }, g.2)) ∧ Gc.VGd (fun x => ¬ LiveT w1.next F' (G.set i ({ g.1 with tok := t }, g.2)) x) w1.st.mem g.1.v ∧ w1.st.mem = w.st.mem ∧ w1.next = w.next := by
  cases hw
  obtain ⟨h1, h2⟩ := h.2.retoken hi ht hF
  exact ⟨⟨modify_map h.1 hi, h1⟩, h2, rfl, rfl⟩

namespace Gc

/-- kinds of objects after `append` or `prepend` -/
def kinds : Bin → Nat → Nat → List SKd → List SKd
  | .appendMove, _, j, K => K.eraseIdx j
  | .prependMove, i, _, K => K.eraseIdx i
  | _, _, _, K => K

/-- the second transient was not moved from -/
theorem own_one {i : Nat} {v : Vc} {m' : Mem Dat T} (h : OwnW er et w [] G) (hi : G[i]? = some g) (hk : g.2 = .transient) (hH : Held w.st.mem (fun t => t = g.1.tok) m') (hv : VGd (OkT w.next [] G g) m' v) :
    OwnG er et m' w.next [] (G.set i ({ g.1 with v := v }, g.2)) :=
  h.2.inPlace hi hH (fun k x hne hx => vgd_mono (h.2.obj k x hx) fun t => h.2.other hi hk hx hne) (h.2.stat.1.mono fun t ht he => ht (.inr (.inr ⟨i, g, hi, hk, he.symm⟩)))
    (h.2.stat.2.mono fun t ht he => ht (.inr (.inr ⟨i, g, hi, hk, he.symm⟩))) hv

/-- the other transient, `j`, was -/
theorem own_two {i j : Nat} {v : Vc} {m' : Mem Dat T} (h : OwnW er et w [] G) (hi : G[i]? = some g) (hk : g.2 = .transient) (hj : G[j]? = some g') (hk' : g'.2 = .transient) (hij : i ≠ j)
    (hH : Held w.st.mem (fun t => t = g.1.tok ∨ t = g'.1.tok) m') (hv : VGd (fun t => OkT w.next [] G g t ∨ t = g'.1.tok) m' v) :
    OwnG er et m' w.next [] ((G.set i ({ g.1 with v := v }, g.2)).eraseIdx j) := by
  have hst : ∀ t, ¬ LiveT w.next [] G t → ¬ (t = g.1.tok ∨ t = g'.1.tok) := by
    rintro t ht (rfl | rfl)
    · exact ht (.inr (.inr ⟨i, g, hi, hk, rfl⟩))
    · exact ht (.inr (.inr ⟨j, g', hj, hk', rfl⟩))
  have hdead := h.2.dead (F' := []) (g' := ({ g'.1 with v := ⟨0, 0, er, et⟩ }, SKd.shell)) hj hk' (fun t ht => ht) fun h => by cases h
  have hlive := OwnG.live_set (next := w.next) (F := []) (F' := []) (g' := ({ g'.1 with v := ⟨0, 0, er, et⟩ }, SKd.shell)) hj (fun t ht => .inl ht) fun h => by cases h
  have h1 : OwnG er et w.st.mem w.next [] (G.set j ({ g'.1 with v := ⟨0, 0, er, et⟩ }, .shell)) := h.2.set hj (fun t ht => .inl ht) ((h.2.kd j g' hj).trans (by rw [hk']; rfl)) (fun h => by cases h)
    ⟨h.2.stat.1.mono fun t ht => .inl (mt (hlive t) ht), h.2.stat.2.mono fun t ht => .inl (mt (hlive t) ht)⟩
  have hi1 : (G.set j ({ g'.1 with v := ⟨0, 0, er, et⟩ }, SKd.shell))[i]? = some g := by rw [List.getElem?_set_ne (by omega)]; exact hi
  have h2 := h1.inPlace (v := v) hi1 hH (fun k x hne hx => ?_) (h.2.stat.1.mono hst) (h.2.stat.2.mono hst) (vgd_mono hv ?_)
  · have h3 := h2.erase j
    rwa [List.set_comm _ _ (by omega), List.eraseIdx_set_eq] at h3
  · rcases OwnG.get_set hx with ⟨rfl, rfl⟩ | ⟨h3, h4⟩
    · exact ⟨h.2.stat.1.mono hst, h.2.stat.2.mono hst⟩
    · refine vgd_mono (h.2.obj k x h4) fun t ht he => ?_
      rcases he with he | he
      · exact h.2.other hi hk h4 hne ht he
      · exact h.2.other hj hk' h4 h3 ht he
  · rintro t ((h3 | h3) | rfl)
    · exact .inl (mt (hlive t) h3)
    · exact .inr h3
    · exact .inl hdead

theorem eraseIdx_map {α γ : Type} (f : α → γ) (l : List α) (i : Nat) : (l.eraseIdx i).map f = (l.map f).eraseIdx i := by
  induction l generalizing i with
  | nil => cases i <;> rfl
  | cons a l ih => cases i with
    | zero => rfl
    | succ i => simp [List.eraseIdx, ih]

theorem snd_set {x : Obj} (hi : G[i]? = some g) : (G.set i (x, g.2)).map Prod.snd = G.map Prod.snd := by
  apply List.ext_getElem?
  intro k
  rw [List.getElem?_map, List.getElem?_map]
  by_cases hk : i = k
  · subst hk
    rw [List.getElem?_set_self (List.getElem?_eq_some_iff.mp hi).1, hi]
    rfl
  · rw [List.getElem?_set_ne hk]

theorem own_join {f : Option (Kind × Nat)} (hg : E.gc = true) (hE : E.Fresh) (h : Own er et w K) (hi : K[i]? = some .transient) (hj : K[j]? = some .transient) (hij : i ≠ j) (hw : call c E f b i j w = .ok w' ()) :
    Own er et w' (kinds b i j K) := by
  obtain ⟨G, rfl, hG⟩ := h
  obtain ⟨gi, hgi, hki⟩ := Option.map_eq_some_iff.mp ((List.getElem?_map ..).symm.trans hi)
  obtain ⟨gj, hgj, hkj⟩ := Option.map_eq_some_iff.mp ((List.getElem?_map ..).symm.trans hj)
  have hGf : OwnW er et ({ w with st := { w.st with fault := f } } : World T) [] G := hG
  unfold call withObj at hw
  simp only [hG.get hgi, hG.get hgj] at hw
  rw [if_pos (.inr (by rw [hG.2.kd i gi hgi, hki]; rfl)), if_pos (.inr (by rw [hG.2.kd j gj hgj, hkj]; rfl))] at hw
  unfold change at hw
  rw [if_neg hij] at hw
  have held : ∀ {m : Mem Dat T} {S}, Fin' m → Held m S m := fun h => ⟨h, fun _ _ => rfl⟩
  cases b with
  | plus => cases hw; exact ⟨G, rfl, hG⟩
  | appendTo =>
    obtain ⟨w1, t, h1, hw⟩ := bind_ok hw
    obtain ⟨hG1, ht1, ht2, hm1⟩ := own_newTok hGf h1
    obtain ⟨w2, _, h2, hw⟩ := bind_ok hw
    obtain ⟨hG2, hl2, hm2, _⟩ := own_setOwner (F' := []) hG1 hgj (List.mem_cons_self ..) (fun x hx => by cases hx) h2
    have hi2 : (G.set j ({ gj.1 with tok := t }, gj.2))[i]? = some gi := by rw [List.getElem?_set_ne (by omega)]; exact hgi
    obtain ⟨w3, x, h3, hw⟩ := bind_ok hw
    obtain ⟨s, h4, rfl⟩ := lift_ok h3
    obtain ⟨w4, _, h5, hw⟩ := bind_ok hw
    have hx2 : x.2 = false := by
      cases hx : x.2 with
      | false => rfl
      | true => rw [hx] at hw; cases hw
    obtain ⟨v, b⟩ := x
    cases hx2
    cases hw
    cases h5
    have hA : OwnOk (OkT w2.next [] (G.set j ({ gj.1 with tok := t }, gj.2)) gi) (some gi.1.tok) := ⟨.inl hG2.2.live0, fun e h => by cases h; exact .inr ⟨hki, rfl⟩⟩
    obtain ⟨_, _, hv⟩ := gv_concatMutL (c := c) (er := none) hg hE hA hG2.2.fin (hG2.2.obj i gi hi2) (vgd_mono hl2 fun _ => .inl) s v h4
    have hH := sv_concatMutL (c := c) (m0 := w2.st.mem) (S := fun t => t = gi.1.tok) (el := gi.1.tok) (er := none) (l := gi.1.v) (r := gj.1.v) hg hE rfl (fun _ h => by cases h) (held hG2.2.fin)
    unfold Sv at hH
    rw [h4] at hH
    refine ⟨_, ?_, modify_map (f := fun h => { h with v := v }) hG2.1 hi2, own_one (w := w2) hG2 hi2 hki hH hv⟩
    rw [snd_set hi2, snd_set hgj]
    rfl
  | prependTo =>
    obtain ⟨w1, t, h1, hw⟩ := bind_ok hw
    obtain ⟨hG1, ht1, ht2, hm1⟩ := own_newTok hGf h1
    obtain ⟨w2, _, h2, hw⟩ := bind_ok hw
    obtain ⟨hG2, hl2, hm2, _⟩ := own_setOwner (F' := []) hG1 hgi (List.mem_cons_self ..) (fun x hx => by cases hx) h2
    have hj2 : (G.set i ({ gi.1 with tok := t }, gi.2))[j]? = some gj := by rw [List.getElem?_set_ne (by omega)]; exact hgj
    obtain ⟨w3, x, h3, hw⟩ := bind_ok hw
    obtain ⟨s, h4, rfl⟩ := lift_ok h3
    cases hw
    have hA : OwnOk (OkT w2.next [] (G.set i ({ gi.1 with tok := t }, gi.2)) gj) (some gj.1.tok) := ⟨.inl hG2.2.live0, fun e h => by cases h; exact .inr ⟨hkj, rfl⟩⟩
    have hv := gr_concatMutR (c := c) (el := none) hg hE hA hG2.2.fin (vgd_mono hl2 fun _ => .inl) (hG2.2.obj j gj hj2)
    have hH := sv_concatMutR (c := c) (m0 := w2.st.mem) (S := fun t => t = gj.1.tok) (er := gj.1.tok) (el := none) (l := gi.1.v) (r := gj.1.v) hg hE (fun _ h => by cases h) rfl (held hG2.2.fin)
    unfold Sv at hH
    unfold Gr at hv
    rw [h4] at hH hv
    refine ⟨_, ?_, modify_map (f := fun h => { h with v := x }) hG2.1 hj2, own_one (w := w2) hG2 hj2 hkj hH hv.2.2⟩
    rw [snd_set hj2, snd_set hgi]
    rfl
  | appendMove =>
    obtain ⟨w3, x, h3, hw⟩ := bind_ok hw
    obtain ⟨s, h4, rfl⟩ := lift_ok h3
    obtain ⟨w4, _, h5, hw⟩ := bind_ok hw
    have hx2 : x.2 = false := by
      cases hx : x.2 with
      | false => rfl
      | true => rw [hx] at hw; cases hw
    obtain ⟨v, b⟩ := x
    cases hx2
    cases hw
    cases h5
    have hA : OwnOk (fun t => OkT w.next [] G gi t ∨ t = gj.1.tok) (some gi.1.tok) := ⟨.inl (.inl hG.2.live0), fun e h => by cases h; exact .inl (.inr ⟨hki, rfl⟩)⟩
    obtain ⟨_, _, hv⟩ := gv_concatMutL (c := c) (er := some gj.1.tok) hg hE hA hGf.2.fin (vgd_mono (hGf.2.obj i gi hgi) fun _ => .inl) (vgd_mono (hGf.2.obj j gj hgj) fun t => by
      rintro (h | ⟨_, rfl⟩)
      · exact .inl (.inl h)
      · exact .inr rfl) s v h4
    have hH := sv_concatMutL (c := c) (m0 := w.st.mem) (S := fun t => t = gi.1.tok ∨ t = gj.1.tok) (el := gi.1.tok) (er := some gj.1.tok) (l := gi.1.v) (r := gj.1.v) (s := { w.st with fault := f }) hg hE (.inl rfl) (fun _ h => by cases h; exact .inr rfl) (held hG.2.fin)
    unfold Sv at hH
    rw [h4] at hH
    refine ⟨_, ?_, ?_, own_two (w := w) hG hgi hki hgj hkj hij hH hv⟩
    · rw [eraseIdx_map, snd_set hgi]; rfl
    · rw [eraseIdx_map, ← modify_map (f := fun h => { h with v := v }) hG.1 hgi]
  | prependMove =>
    obtain ⟨w3, x, h3, hw⟩ := bind_ok hw
    obtain ⟨s, h4, rfl⟩ := lift_ok h3
    cases hw
    have hA : OwnOk (fun t => OkT w.next [] G gj t ∨ t = gi.1.tok) (some gj.1.tok) := ⟨.inl (.inl hG.2.live0), fun e h => by cases h; exact .inl (.inr ⟨hkj, rfl⟩)⟩
    have hv := gr_concatMutR (c := c) (el := some gi.1.tok) hg hE hA hGf.2.fin (vgd_mono (hGf.2.obj i gi hgi) fun t => by
      rintro (h | ⟨_, rfl⟩)
      · exact .inl (.inl h)
      · exact .inr rfl) (vgd_mono (hGf.2.obj j gj hgj) fun _ => .inl)
    have hH := sv_concatMutR (c := c) (m0 := w.st.mem) (S := fun t => t = gj.1.tok ∨ t = gi.1.tok) (er := gj.1.tok) (el := some gi.1.tok) (l := gi.1.v) (r := gj.1.v) (s := { w.st with fault := f }) hg hE (fun _ h => by cases h; exact .inr rfl) (.inl rfl) (held hG.2.fin)
    unfold Sv at hH
    unfold Gr at hv
    rw [h4] at hH hv
    refine ⟨_, ?_, ?_, own_two (w := w) hG hgj hkj hgi hki (by omega) hH hv.2.2⟩
    · rw [eraseIdx_map, snd_set hgj]; rfl
    · rw [eraseIdx_map, ← modify_map (f := fun h => { h with v := x }) hG.1 hgj]

end Gc

end FlexHeap
