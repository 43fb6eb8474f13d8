import Verif.FlexHeap.ConcatOps

/-!
# Appending in place, when references are counted

`concat_mut_l` (`rrbtree.hpp` 782-906) and `concat_mut_lr_l` (1022-1185).  When the elements of the second operand do not fit into the
tail of the first, an exception destroys elements of the wrong node (F8): then nothing may throw.
-/

namespace FlexHeap
open Mm Rrb VecHeap

section
variable {T β : Type} {c : Cfg} {E : Env Dat T} {u : Toks E.gc} {s : St Dat T} {O : List Nat} {L L' : List (Ref (Val T))} {v w : Vc} {t t2 : Tree T} {l l2 pre tl upre utl A D : List T} {cl c2 : Cell Dat T} {e k k' p q : Nat}

theorem attempt_out {x : HM T β} {Q : St Dat T → β → Prop} {F : St Dat T → Prop} (h : Out (x s) Q F) :
    Out (attempt x s) (fun s' o => o.elim (F s') (Q s')) (fun _ => False) := by
  unfold attempt
  cases hx : x s <;> rw [hx] at h <;> exact h

/-- without a fault nothing is thrown -/
theorem out_calm {x : HM T β} {Q : St Dat T → β → Prop} {F F' : St Dat T → Prop} (hx : Calm x) (hf : s.fault = none) (h : Out (x s) Q F) : Out (x s) (fun s' b => Q s' b ∧ s'.fault = none) F' := by
  have hc := hx s
  cases hxs : x s with
  | ok s' b => rw [hxs] at h hc; exact ⟨h, hc.none hf⟩
  | thrown s' => rw [hxs] at hc; exact absurd hf hc
  | ub => rw [hxs] at h; exact h

/-- a vector that has been changed, the references `L'` of the others being as they were -/
def Changed (c : Cfg) (E : Env Dat T) (u : Toks E.gc) (O : List Nat) (L' : List (Ref (Val T))) (m0 : Mem Dat T) (k b : Nat) (es : List T) (s' : St Dat T) (x : Vc) : Prop :=
  ∃ t', Flex.Inv c t' es ∧ t'.shift ≤ b ∧ Is x t' ∧ Inv (sys c E u) s'.mem O (refs x t' k ++ L') ∧ Kept (sys c E u) O L' m0 s'.mem

/-- the tail of the first operand is full, the rest of the second becomes the new tail -/
theorem splitTail_out (hB : 0 < c.B) (hE : E.Fresh) (hg : E.gc = false) (hp : FParts c v t pre tl) (htl : tl ≠ []) (hA : (tl ++ A).length = 2 ^ c.BL)
    (ho : Opened c E u k O (⟨v.root, .node t.root, k, false⟩ :: L') (tl ++ A) s.mem q cl) (hc2 : s.mem p = some c2) (hx : ∀ j, A.length ≤ j → j < (A ++ D).length → c2.els[j]? = ((A ++ D)[j]?).map .live)
    (hD : D ≠ []) (hle : (A ++ D).length ≤ 2 ^ c.BL) (hf : s.fault = none) {hd1 : Nat → HM T Unit} {hd2 : HM T Unit} :
    Out ((((copyLeafI c E (some k) p A.length (A ++ D).length).bind fun nt =>
      ((Fc.pushTailMut c E k v.root v.shift pre.length q (2 ^ c.BL)).bind fun x => M.ret (Vc.mk (v.size + (A ++ D).length) x.1 x.2 nt)).guard (hd1 nt)).guard hd2) s)
      (Changed c E u O L' s.mem k (v.shift + c.B) (pre ++ tl ++ (A ++ D))) (fun _ => False) := by
  have hgc : ∀ {P : Prop}, E.gc = true → P := fun h => by rw [hg] at h; cases h
  have hdrop : (A ++ D).drop A.length = D := by simp
  have hdl : (A ++ D).length - A.length = D.length := by simp
  obtain ⟨s', R, M, a1, a2, a3, a4⟩ := Flex.pushTailRoot_spec hB hp.froot hA
  refine out_guard (E' := fun _ => False) ?_ (fun _ h => h.elim)
  refine out_bind (out_calm (calm_copyLeafI _ _ _ _ _ _) hf (copyLeafI_cell (own := some k) hE ho.inv hc2 hx rfl hle)) ?_
  rintro s1 nt ⟨⟨hn1, hs1⟩, hf1⟩
  rw [hdrop, hdl] at hs1
  refine out_guard (E' := fun _ => False) ?_ (fun _ h => h.elim)
  have hcn : s1.mem nt = some (leafCell c E (some k) D.length D) := by rw [hs1]; exact upd_self
  have hne : q ≠ nt := by rintro rfl; rw [ho.cell] at hn1; cases hn1
  have hcq : s1.mem q = some cl := by rw [hs1, upd_ne hne]; exact ho.cell
  have hi1 : Inv (sys c E u) s1.mem (q :: nt :: O) (⟨v.root, .node t.root, k, false⟩ :: L') := by
    rw [hs1]
    exact (ho.inv.alloc hn1 _).perm (List.Perm.swap _ _ _) (List.Perm.refl _)
  have hk1 : Kept (sys c E u) O (⟨v.root, .node t.root, k, false⟩ :: L') s.mem s1.mem := by rw [hs1]; exact Kept.open (Kept.new ho.inv hn1 _)
  have hi2 : Inv (sys c E u) s1.mem (nt :: O) (⟨q, .node (.leaf (tl ++ A)), k, false⟩ :: ⟨v.root, .node t.root, k, false⟩ :: L') :=
    VecHeap.retok (close_leaf (t := k) hi1 hcq ho.data ho.els ho.rc (fun _ => ho.len) (fun _ => ho.len) hgc) (fun _ => rfl) false (fun h => by cases h)
  have hp' : FParts c ⟨pre.length + 2 ^ c.BL, v.shift, v.root, q⟩ ⟨pre.length + 2 ^ c.BL, v.shift, t.root, .leaf (tl ++ A)⟩ pre (tl ++ A) := by
    refine ⟨?_, by rw [hA], rfl, by rw [hA], by simp [htl], hp.root⟩
    exact Flex.tailOffset_ok (tl := tl ++ A) (by rw [List.length_append, hA]) (by rw [hA]) (by simp [htl]) hp.froot
  have hpt := fcPushTailMut_out (v := ⟨pre.length + 2 ^ c.BL, v.shift, v.root, q⟩) (s := s1) hB hE (u := u) hgc hp' hA a1 hi2 (by rw [hf1]; intro j h; cases h)
  rw [hA] at hpt
  refine out_bind (out_calm (calm_fpushTailMut _ _ _ _ _ _ _ _) hf1 hpt) ?_
  rintro s3 ⟨sh, nr⟩ ⟨⟨rfl, hi3, hk3⟩, _⟩
  have hcn3 : s3.mem nt = _ := (hk3.2 nt List.mem_cons_self).trans hcn
  have hi4 := VecHeap.retok (close_cell hi3 hcn3 (le_refl _) (by simp at hle; omega) hgc) (t' := k) hgc false (fun h => by cases h)
  have hsz := hp.size
  refine ⟨⟨v.size + (A ++ D).length, _, R, .leaf D⟩, ⟨pre ++ (tl ++ A), D, by simp, by simp [hsz]; omega, rfl, by simp at hle; omega, fun h => absurd h hD, .inr ⟨M, a2, a3⟩⟩, a4, ⟨rfl, rfl⟩, hi4.permL (List.Perm.swap _ _ _), ?_⟩
  exact (Kept.tail hk1).trans (Kept.open hk3)

/-- the elements have been copied or moved: what fits is in the tail of the first operand -/
theorem filled_out (hB : 0 < c.B) (hE : E.Fresh) (hg : E.gc = false) (hi : Is v t) (hv : Flex.Inv c t l) (hp : FParts c v t pre tl) (htl : tl ≠ []) (hl : tl.length ≠ 2 ^ c.BL) (hu : utl ≠ []) (hn : A = utl.take (2 ^ c.BL - tl.length))
    (ho : Opened c E u k O (⟨v.root, .node t.root, k, false⟩ :: L') (tl ++ A) s.mem q cl) (hc2 : s.mem p = some c2) (hx : ∀ j, A.length ≤ j → j < utl.length → c2.els[j]? = (utl[j]?).map .live)
    (hle : utl.length ≤ 2 ^ c.BL) (hf : 2 ^ c.BL < tl.length + utl.length → s.fault = none) {hd1 : Nat → HM T Unit} {hd2 : HM T Unit} :
    Out ((if tl.length + utl.length ≤ 2 ^ c.BL then M.ret { ({ v with tail := q } : Vc) with size := v.size + utl.length } else
      ((copyLeafI c E (some k) p (min utl.length (2 ^ c.BL - tl.length)) utl.length).bind fun nt =>
        ((Fc.pushTailMut c E k v.root v.shift pre.length q (2 ^ c.BL)).bind fun x => M.ret (Vc.mk (v.size + utl.length) x.1 x.2 nt)).guard (hd1 nt)).guard hd2) s)
      (Changed c E u O L' s.mem k (v.shift + c.B) (pre ++ tl ++ utl)) (fun _ => False) := by
  have hgc : ∀ {P : Prop}, E.gc = true → P := fun h => by rw [hg] at h; cases h
  have hsz := hp.size
  have hpl := hp.le
  by_cases hfit : tl.length + utl.length ≤ 2 ^ c.BL
  · rw [if_pos hfit]
    rw [List.take_of_length_le (by omega)] at hn
    subst hn
    have hi2 : Inv (sys c E u) s.mem O (⟨q, .node (.leaf (tl ++ A)), k, false⟩ :: ⟨v.root, .node t.root, k, false⟩ :: L') :=
      VecHeap.retok (close_leaf (t := k) ho.inv ho.cell ho.data ho.els ho.rc (fun _ => ho.len) (fun _ => ho.len) hgc) (fun _ => rfl) false (fun h => by cases h)
    exact ⟨⟨v.size + A.length, v.shift, t.root, .leaf (tl ++ A)⟩, ⟨pre, tl ++ A, by simp, by simp [hsz]; omega, rfl, by simpa using hfit, by simp [htl], hp.froot⟩, by simp only; omega, ⟨rfl, rfl⟩, hi2.permL (List.Perm.swap _ _ _), .refl⟩
  · rw [if_neg hfit]
    have hAl : A.length = 2 ^ c.BL - tl.length := by rw [hn, List.length_take]; omega
    have hm : min utl.length (2 ^ c.BL - tl.length) = A.length := by omega
    obtain ⟨D, hD⟩ : ∃ D, D = utl.drop (2 ^ c.BL - tl.length) := ⟨_, rfl⟩
    have hul : utl = A ++ D := by rw [hn, hD, List.take_append_drop]
    rw [hm]
    subst hul
    refine splitTail_out hB hE hg hp htl (by simp; omega) ho hc2 hx ?_ hle (hf (by omega))
    rintro rfl
    simp at hfit
    omega

/-- appending to the tail in place, the elements being copied -/
theorem tailCopy_out (hB : 0 < c.B) (hE : E.Fresh) (hg : E.gc = false) (hi : Is v t) (hv : Flex.Inv c t (pre ++ tl)) (hp : FParts c v t pre tl) (htl : tl ≠ []) (hl : tl.length ≠ 2 ^ c.BL) (hu : utl ≠ []) (hle : utl.length ≤ 2 ^ c.BL)
    (ho : Opened c E u k O (⟨v.root, .node t.root, k, false⟩ :: L') tl s.mem q cl) (ha : At (sys c E u) s.mem L' p (.node (.leaf utl))) (hf : 2 ^ c.BL < tl.length + utl.length → s.fault = none) {hd1 : Nat → HM T Unit} {hd2 : HM T Unit} :
    Out (attempt ((uninitCopy p 0 (min utl.length (2 ^ c.BL - tl.length)) q tl.length).bind fun _ =>
      if tl.length + utl.length ≤ 2 ^ c.BL then M.ret { ({ v with tail := q } : Vc) with size := v.size + utl.length } else
      ((copyLeafI c E (some k) p (min utl.length (2 ^ c.BL - tl.length)) utl.length).bind fun nt =>
        ((Fc.pushTailMut c E k v.root v.shift pre.length q (2 ^ c.BL)).bind fun x => M.ret (Vc.mk (v.size + utl.length) x.1 x.2 nt)).guard (hd1 nt)).guard hd2) s)
      (fun s' o => o.elim (Changed c E u O L' s.mem k (v.shift + c.B) (pre ++ tl) s' { v with tail := q }) (Changed c E u O L' s.mem k (v.shift + c.B) (pre ++ tl ++ utl) s')) (fun _ => False) := by
  have hgc : ∀ {P : Prop}, E.gc = true → P := fun h => by rw [hg] at h; cases h
  have hpl := hp.le
  obtain ⟨c2, hc2, _, hx2, hnO⟩ := at_leaf ho.inv (ha.mono fun r hr => List.mem_cons_of_mem _ hr)
  have hne : p ≠ q := fun he => hnO (by rw [he]; exact List.mem_cons_self)
  obtain ⟨A, hA⟩ : ∃ A, A = utl.take (2 ^ c.BL - tl.length) := ⟨_, rfl⟩
  have hAl : A.length = min utl.length (2 ^ c.BL - tl.length) := by rw [hA, List.length_take]; omega
  have hcl : cl.els = tl.map .live ++ List.replicate (min utl.length (2 ^ c.BL - tl.length)) .raw ++ List.replicate (2 ^ c.BL - tl.length - A.length) .raw := by
    obtain ⟨j, hj⟩ := ho.els
    have := ho.len
    rw [hj] at this
    simp at this
    rw [hj, List.append_assoc, List.replicate_append_replicate]
    congr 2
    omega
  have hcp := uninitCopy_out (s := s) (i := 0) (o := tl.length) hne ho.cell (pre := tl.map .live) (post := List.replicate (2 ^ c.BL - tl.length - A.length) .raw) (by simp) hc2 (ys := A) hAl.symm
    (fun j hj => by rw [Nat.zero_add, hx2.get (by omega), hA, List.getElem?_take_of_lt (by omega)]) hcl
  refine attempt_out (Q := Changed c E u O L' s.mem k (v.shift + c.B) (pre ++ tl ++ utl)) (F := fun s' => Changed c E u O L' s.mem k (v.shift + c.B) (pre ++ tl) s' { v with tail := q }) (out_bind (Q := fun s1 _ => Opened c E u k O (⟨v.root, .node t.root, k, false⟩ :: L') (tl ++ A) s1.mem q { cl with els := tl.map .live ++ A.map .live ++ List.replicate (2 ^ c.BL - tl.length - A.length) .raw } ∧
      s1.mem p = some c2 ∧ (2 ^ c.BL < tl.length + utl.length → s1.fault = none) ∧ Kept (sys c E u) O L' s.mem s1.mem) ?_ ?_)
  · have hlat := calm_uninitCopy p 0 (min utl.length (2 ^ c.BL - tl.length)) q tl.length s
    revert hcp hlat
    cases hres : uninitCopy p 0 (min utl.length (2 ^ c.BL - tl.length)) q tl.length s with
    | ok s1 _ =>
      rintro ⟨h1, -⟩ hlat
      refine ⟨⟨by rw [h1]; exact upd_self, ho.data, ⟨_, by rw [List.map_append]⟩, ?_, ho.rc, hgc, by rw [h1]; exact ho.inv.write List.mem_cons_self _⟩, by rw [h1, upd_ne hne]; exact hc2, fun h => hlat.none (hf h), ?_⟩
      · simp
        omega
      · rw [h1]
        exact Kept.tail (Kept.write ho.inv _)
    | thrown s1 =>
      rintro ⟨h1, -⟩ -
      have hi2 : Inv (sys c E u) s1.mem O (⟨q, .node (.leaf tl), k, false⟩ :: ⟨v.root, .node t.root, k, false⟩ :: L') := by
        rw [h1]
        exact VecHeap.retok (close_leaf (t := k) ho.inv ho.cell ho.data ho.els ho.rc (fun _ => ho.len) (fun _ => ho.len) hgc) (fun _ => rfl) false (fun h => by cases h)
      exact ⟨t, hv, by rw [← hi.shift]; omega, ⟨hi.size, hi.shift⟩, by unfold refs; rw [hp.tail]; exact hi2.permL (List.Perm.swap _ _ _), .of_eq h1⟩
    | ub => exact fun h _ => h.elim
  · rintro s1 _ ⟨h1, h2, h3, h4⟩
    refine out_mono (filled_out hB hE hg hi hv hp htl hl hu hA h1 h2 (fun j _ hj => hx2.get hj) hle h3) ?_ (fun _ h => h.elim)
    rintro s2 x ⟨t', b1, b2, b3, b4, b5⟩
    exact ⟨t', b1, b2, b3, b4, h4.trans b5⟩

/-- the tail of a vector whose elements may have been moved from -/
def Husk (c : Cfg) (w : Vc) (m : Mem Dat T) : Prop :=
  ∃ (cw : Cell Dat T) (mid : List (Slot T)) (j : Nat), m w.tail = some cw ∧ cw.data = .leaf ∧ cw.rc = 1 ∧ cw.els = mid ++ List.replicate j .raw ∧ (∀ x ∈ mid, x.there = true) ∧ mid.length = w.size ∧ cw.els.length = 2 ^ c.BL

/-- which is all that is needed to destroy it -/
theorem huskDrop_out (hg : E.gc = false) (hj : Is w t2) (hq : FParts c w t2 [] utl) (h : Inv (sys c E u) s.mem (w.tail :: O) (⟨w.root, .node t2.root, k', false⟩ :: L)) (hh : Husk c w s.mem) :
    Out (Fc.drop c E w s) (fun s' _ => Gone c E u O L s.mem s'.mem) (fun _ => False) := by
  obtain ⟨cw, mid, j, h1, h2, h3, h4, h5, h6, h7⟩ := hh
  unfold Fc.drop
  rw [bind_ok (off_eq hq hj (h.den (r := ⟨w.root, .node t2.root, k', false⟩) (by simp))), if_neg (by simp)]
  have hr : t2.root = emptyRoot := by
    rcases hq.root with ⟨_, h, _⟩ | ⟨_, h, _⟩
    · exact h
    · exact absurd rfl h
  refine out_bind (decEmpty_out (r := ⟨w.root, .node t2.root, k', false⟩) (by rw [← hr]) h) ?_
  rintro s1 _ hg1
  have hc1 : s1.mem w.tail = some cw := (hg1.2.2 _ List.mem_cons_self).trans h1
  unfold decLeaf decV
  rw [if_pos (show (Shp.leafSub (w.size - ([] : List T).length)).isLeaf = true from rfl), bind_ok (dec_rc hg hc1 (by omega))]
  simp only [h3]
  refine out_mono (delLeaf_there (s := { s1 with mem := upd s1.mem w.tail (some { cw with rc := 1 - 1 }) }) (cl := { cw with rc := 1 - 1 }) (u := u) (O := O) (L := L) (hg1.1.write List.mem_cons_self _) upd_self h2 h4 h5 h6 ?_) ?_ (fun _ h => h)
  · rw [hg]
    simp [leafRoom_rc hg, h7]
  · rintro s2 _ hg2
    refine ⟨hg2.1, (Kept.open hg1.2).trans (Kept.trans ?_ hg2.2)⟩
    exact Kept.write hg1.1 _

/-- what becomes of both operands -/
def Appended (c : Cfg) (E : Env Dat T) (u : Toks E.gc) (O : List Nat) (L : List (Ref (Val T))) (w : Vc) (t2 : Tree T) (k k' : Nat) (mv : Bool) (m0 : Mem Dat T) (b : Nat) (l l2 : List T) (s' : St Dat T) (x : Vc × Bool) : Prop :=
  Changed c E u O (refs w t2 k' ++ L) m0 k b (if x.2 then l else l ++ l2) s' x.1 ∨
    (mv = true ∧ x.2 = false ∧ (∃ utl, FParts c w t2 [] utl) ∧ Husk c w s'.mem ∧ ∃ m1, Kept (sys c E u) O L m0 m1 ∧ Changed c E u (w.tail :: O) (⟨w.root, .node t2.root, k', false⟩ :: L) m1 k b (l ++ l2) s' x.1)

theorem calm_fmutableTail (v : Vc) (n : Nat) : Calm (Vc.mutableTail c E e v n) := by calm

/-- the elements are moved out of the tail of the second operand -/
theorem tailMove_out (hB : 0 < c.B) (hE : E.Fresh) (hg : E.gc = false) (hi : Is v t) (hv : Flex.Inv c t (pre ++ tl)) (hp : FParts c v t pre tl) (htl : tl ≠ []) (hl : tl.length ≠ 2 ^ c.BL) (hu : utl ≠ []) (hq : FParts c w t2 [] utl)
    (ho : Opened c E u k O (⟨v.root, .node t.root, k, false⟩ :: (refs w t2 k' ++ L)) tl s.mem q cl) (hc2 : s.mem w.tail = some c2) (hm : mutable E k c2 = true) (hf : 2 ^ c.BL < tl.length + utl.length → s.fault = none) {hd1 : Nat → HM T Unit} {hd2 : HM T Unit} :
    Out (attempt ((uninitMove w.tail 0 (min utl.length (2 ^ c.BL - tl.length)) q tl.length).bind fun _ =>
      if tl.length + utl.length ≤ 2 ^ c.BL then M.ret { ({ v with tail := q } : Vc) with size := v.size + utl.length } else
      ((copyLeafI c E (some k) w.tail (min utl.length (2 ^ c.BL - tl.length)) utl.length).bind fun nt =>
        ((Fc.pushTailMut c E k v.root v.shift pre.length q (2 ^ c.BL)).bind fun x => M.ret (Vc.mk (v.size + utl.length) x.1 x.2 nt)).guard (hd1 nt)).guard hd2) s)
      (fun s' o => o.elim False fun x => Husk c w s'.mem ∧ ∃ m1, Kept (sys c E u) O L s.mem m1 ∧ Changed c E u (w.tail :: O) (⟨w.root, .node t2.root, k', false⟩ :: L) m1 k (v.shift + c.B) (pre ++ tl ++ utl) s' x) (fun _ => False) := by
  have hgc : ∀ {P : Prop}, E.gc = true → P := fun h => by rw [hg] at h; cases h
  have hpl := hp.le
  have hql := hq.le
  have hqs := hq.size
  have hpm : (⟨v.root, .node t.root, k, false⟩ :: (refs w t2 k' ++ L) : List (Ref (Val T))).Perm (⟨w.tail, .node t2.tail, k', false⟩ :: ⟨v.root, .node t.root, k, false⟩ :: ⟨w.root, .node t2.root, k', false⟩ :: L) := by
    show List.Perm (_ :: _ :: _ :: L) _
    exact ((List.Perm.swap _ _ _).cons _).trans (List.Perm.swap _ _ _)
  have hi1 := ho.inv.permL hpm
  rw [hq.tail] at hi1
  have hne : w.tail ≠ q := by
    have := hi1.reach_notin ⟨⟨w.tail, .node (.leaf utl), k', false⟩, List.mem_cons_self, .here⟩
    intro he
    exact this (by rw [he]; exact List.mem_cons_self)
  obtain ⟨hd2', hx2, hl2, hi2⟩ := open_leaf (e := k) hgc hi1 rfl hc2 hm
  have hi2 : Inv (sys c E u) s.mem (w.tail :: q :: O) (⟨v.root, .node t.root, k, false⟩ :: ⟨w.root, .node t2.root, k', false⟩ :: L) := hi2
  obtain ⟨A, hA⟩ : ∃ A, A = utl.take (2 ^ c.BL - tl.length) := ⟨_, rfl⟩
  have hAl : A.length = min utl.length (2 ^ c.BL - tl.length) := by rw [hA, List.length_take]; omega
  obtain ⟨D, hD⟩ : ∃ D, D = utl.drop (2 ^ c.BL - tl.length) := ⟨_, rfl⟩
  have hul : utl = A ++ D := by rw [hA, hD, List.take_append_drop]
  have hcl : cl.els = tl.map .live ++ List.replicate (min utl.length (2 ^ c.BL - tl.length)) .raw ++ List.replicate (2 ^ c.BL - tl.length - A.length) .raw := by
    obtain ⟨j, hj⟩ := ho.els
    have := ho.len
    rw [hj] at this
    simp at this
    rw [hj, List.append_assoc, List.replicate_append_replicate]
    congr 2
    omega
  obtain ⟨j, hj⟩ := hx2
  have hc2e : c2.els = [] ++ A.map .live ++ (D.map .live ++ List.replicate j .raw) := by rw [hj, hul]; simp
  have hmv := uninitMove_eq hne A 0 (min utl.length (2 ^ c.BL - tl.length)) tl.length [] _ (tl.map .live) _ s c2 cl hc2 ho.cell hAl.symm rfl (by simp) hc2e hcl
  obtain ⟨cw, hcw⟩ : ∃ cw : Cell Dat T, cw = { c2 with els := [] ++ List.replicate (min utl.length (2 ^ c.BL - tl.length)) .moved ++ (D.map .live ++ List.replicate j .raw) } := ⟨_, rfl⟩
  obtain ⟨cq, hcq⟩ : ∃ cq : Cell Dat T, cq = { cl with els := tl.map .live ++ A.map .live ++ List.replicate (2 ^ c.BL - tl.length - A.length) .raw } := ⟨_, rfl⟩
  rw [← hcw, ← hcq] at hmv
  obtain ⟨s1, hs1⟩ : ∃ s1 : St Dat T, s1 = ⟨upd (upd s.mem w.tail (some cw)) q (some cq), s.clock, s.fault⟩ := ⟨_, rfl⟩
  rw [← hs1] at hmv
  have hw1 : s1.mem w.tail = some cw := by rw [hs1]; show upd _ _ _ _ = _; rw [upd_ne hne]; exact upd_self
  have hq1 : s1.mem q = some cq := by rw [hs1]; exact upd_self
  have hi3 : Inv (sys c E u) s1.mem (w.tail :: q :: O) (⟨v.root, .node t.root, k, false⟩ :: ⟨w.root, .node t2.root, k', false⟩ :: L) := by
    rw [hs1]
    exact (hi2.write List.mem_cons_self _).write (List.mem_cons_of_mem _ List.mem_cons_self) _
  have hk1 : Kept (sys c E u) O L s.mem s1.mem := by
    have a1 : Kept (sys c E u) (q :: O) L s.mem (upd s.mem w.tail (some cw)) := Kept.tail (Kept.tail (Kept.write hi2 _))
    have a2 := Kept.write ((hi2.write List.mem_cons_self cw).perm (List.Perm.swap _ _ _) (List.Perm.refl _)) (some cq)
    rw [hs1]
    exact (Kept.open a1).trans (Kept.open (Kept.tail (Kept.tail a2)))
  have hml : w.size = A.length + D.length := by rw [hqs, hul]; simp
  have hj' : j + utl.length = 2 ^ c.BL := by
    rw [hj] at hl2
    simp at hl2
    omega
  have hhusk : ∀ {m : Mem Dat T}, m w.tail = some cw → Husk c w m := by
    intro m hm1
    refine ⟨cw, List.replicate (min utl.length (2 ^ c.BL - tl.length)) .moved ++ D.map .live, j, hm1, by rw [hcw]; exact hd2', by rw [hcw]; exact mutable_rc hg hm, by rw [hcw]; simp, ?_, by simp; omega, ?_⟩
    · intro x hx
      rcases List.mem_append.mp hx with hx | hx
      · rw [List.eq_of_mem_replicate hx]; rfl
      · obtain ⟨y, _, rfl⟩ := List.mem_map.mp hx; rfl
    · rw [hcw]
      have : utl.length = A.length + D.length := by rw [hul]; simp
      simp
      omega
  refine attempt_out (Q := fun s' x => Husk c w s'.mem ∧ ∃ m1, Kept (sys c E u) O L s.mem m1 ∧ Changed c E u (w.tail :: O) (⟨w.root, .node t2.root, k', false⟩ :: L) m1 k (v.shift + c.B) (pre ++ tl ++ utl) s' x) (F := fun _ => False) ?_
  rw [bind_ok hmv]
  have hop : Opened c E u k (w.tail :: O) (⟨v.root, .node t.root, k, false⟩ :: ⟨w.root, .node t2.root, k', false⟩ :: L) (tl ++ A) s1.mem q cq := by
    refine ⟨hq1, by rw [hcq]; exact ho.data, by rw [hcq]; exact ⟨_, by rw [List.map_append]⟩, ?_, fun _ => by rw [hcq]; exact ho.rc hg, hgc, hi3.perm (List.Perm.swap _ _ _) (List.Perm.refl _)⟩
    rw [hcq]
    simp
    omega
  refine out_mono (filled_out hB hE hg hi hv hp htl hl hu hA hop hw1 ?_ hql (by rw [hs1]; exact hf)) ?_ (fun _ h => h)
  · intro i h1 h2
    have hi2 : i - A.length < D.length := by rw [hul] at h2; simp at h2; omega
    rw [hcw, ← hAl, hul]
    simp only [List.nil_append]
    rw [List.getElem?_append_right (by simpa using h1), List.getElem?_append_left (by simpa using hi2), List.getElem?_append_right h1, List.getElem?_map]
    simp only [List.length_replicate]
  · rintro s2 x ⟨t', b1, b2, b3, b4, b5⟩
    exact ⟨hhusk ((b5.2 _ List.mem_cons_self).trans hw1), s1.mem, hk1, t', b1, b2, b3, b4, b5⟩

/-- `concat_mut_l` and `concat_mut_lr_l`: unless something throws before anything has happened, the first operand has the elements of
both, or, if copying the first elements threw, those it had. -/
theorem fconcatMutL_out (hB : 2 ≤ c.B) (hE : E.Fresh) (hg : E.gc = false) {mv : Bool} (hi : Is v t) (hv : Flex.Inv c t l) (hj : Is w t2) (hw : Flex.Inv c t2 l2) (h : Inv (sys c E u) s.mem O (refs v t k ++ (refs w t2 k' ++ L)))
    (h32 : w.size ≤ 2 ^ 32) (hs32 : w.shift < 32) (hN : NoTab s.fault)
    (hF : ∀ o, Flex.tailOffset c t2 = some 0 → Flex.tailOffset c t = some o → v.size - o ≠ 2 ^ c.BL → 2 ^ c.BL < v.size - o + w.size → s.fault = none) :
    Out (Fc.concatMutL c E mv k v w s) (Appended c E u O L w t2 k k' mv s.mem (max v.shift w.shift + c.B) l l2) (fun s' => Gone c E u O (refs v t k ++ (refs w t2 k' ++ L)) s.mem s'.mem) := by
  have hB0 : 0 < c.B := by omega
  have hgc : ∀ {P : Prop}, E.gc = true → P := fun h => by rw [hg] at h; cases h
  obtain ⟨pre, tl, rfl, hp⟩ := fparts hB0 hi hv
  obtain ⟨upre, utl, rfl, hq⟩ := fparts hB0 hj hw
  have hsz := hp.size
  have hsw := hq.size
  have h' := retok2 hg 0 0 h
  have hvL' : ∀ r ∈ refs v t 0, r ∈ refs v t 0 ++ (refs w t2 0 ++ L) := fun r hr => by simp [hr]
  have hwL' : ∀ r ∈ refs w t2 0, r ∈ refs v t 0 ++ (refs w t2 0 ++ L) := fun r hr => by simp [hr]
  unfold Fc.concatMutL
  have dropv : ∀ {s1 : St Dat T} {x : Vc} {t' : Tree T}, Flex.Inv c t' (pre ++ tl ++ (upre ++ utl)) → t'.shift ≤ max v.shift w.shift + c.B → Is x t' → Inv (sys c E u) s1.mem O (refs x t' 0 ++ (refs v t 0 ++ (refs w t2 0 ++ L))) →
      Kept (sys c E u) O (refs v t 0 ++ (refs w t2 0 ++ L)) s.mem s1.mem →
      Out (((Fc.drop c E v).bind fun _ => M.ret (x, false)) s1) (Appended c E u O L w t2 k k' mv s.mem (max v.shift w.shift + c.B) (pre ++ tl) (upre ++ utl))
        (fun s' => Gone c E u O (refs v t k ++ (refs w t2 k' ++ L)) s.mem s'.mem) := by
    intro s1 x t' a1 a2 a3 a4 a5
    refine out_bind (out_mono (fdrop_out hB0 hi hv (a4.permL (List.perm_append_comm_assoc _ _ _))) (fun _ _ h => h) (fun _ h => h.elim)) ?_
    rintro s2 _ hg2
    refine .inl ⟨t', a1, a2, a3, retok2 hg _ _ hg2.1, kept_ptr (ptr_refs _ 0 fun r hr => ⟨r, hr, rfl⟩) ?_⟩
    exact (Kept.mono a5 (fun r hr => List.mem_append_right _ hr) (fun _ h => h)).trans (Kept.mono hg2.2 (fun r hr => List.mem_append_right _ hr) (fun _ h => h))
  have gone : ∀ {s1 : St Dat T}, Gone c E u O (refs v t 0 ++ (refs w t2 0 ++ L)) s.mem s1.mem → Gone c E u O (refs v t k ++ (refs w t2 k' ++ L)) s.mem s1.mem :=
    fun hg1 => ⟨retok2 hg _ _ hg1.1, kept_retok2 _ _ hg1.2⟩
  by_cases h0 : v.size = 0
  · rw [if_pos h0]
    have : pre ++ tl = [] := List.length_eq_zero_iff.1 (by rw [List.length_append]; omega)
    refine out_bind (out_mono (share_out h' hwL' 0) (fun _ _ h => h) (fun _ h => h.elim)) ?_
    rintro s1 _ ⟨h1, h2⟩
    exact dropv (by rw [this]; simpa using hw) (by rw [← hj.shift]; omega) hj h1 h2
  rw [if_neg h0]
  by_cases hw0 : w.size = 0
  · rw [if_pos hw0]
    have : upre ++ utl = [] := List.length_eq_zero_iff.1 (by rw [List.length_append]; omega)
    exact .inl ⟨t, by rw [this]; simpa using hv, by rw [← hi.shift]; omega, hi, h, .refl⟩
  rw [if_neg hw0, bind_ok (off_eq hq hj (refs_ok h' hwL').1.den), bind_ok (off_eq hp hi (refs_ok h' hvL').1.den)]
  have htne : tl ≠ [] := by rintro rfl; rw [hp.nil rfl] at hsz; simp at hsz; omega
  have hutne : utl ≠ [] := by rintro rfl; rw [hq.nil rfl] at hsw; simp at hsw; omega
  by_cases hr0 : upre.length = 0
  · rw [if_pos hr0]
    have : upre = [] := List.length_eq_zero_iff.1 hr0
    subst this
    have hsw' : w.size = utl.length := by simpa using hsw
    rw [hp.rest]
    have hsp : (refs v t k ++ (refs w t2 k' ++ L)).Perm (⟨v.tail, .node (.leaf tl), k, false⟩ :: ⟨v.root, .node t.root, k, false⟩ :: (refs w t2 k' ++ L)) := by rw [← hp.tail]; exact List.Perm.swap _ _ _
    have h1 := h.permL hsp
    by_cases hfull : tl.length = 2 ^ c.BL
    · rw [if_pos hfull]
      obtain ⟨s', R, M, a1, a2, a3, a4⟩ := Flex.pushTailRoot_spec hB0 hp.froot hfull
      refine out_bind (out_mono (fcPushTailMut_out hB0 hE hgc hp hfull a1 h1 hN) (fun _ _ h => h) (fun _ hg => Gone.permL hg hsp.symm)) ?_
      rintro s1 ⟨sh, nr⟩ ⟨rfl, hi1, hk1⟩
      have hi1' : Inv (sys c E u) s1.mem O (⟨nr, .node R, 0, false⟩ :: (refs w t2 0 ++ L)) := by
        have b1 := VecHeap.retok hi1 (t' := 0) hgc false (fun h => by cases h)
        have b2 := retokAll (v := w) (t := t2) (k := k') hg 0 (b1.permL (List.perm_append_comm_assoc [(⟨nr, .node R, 0, false⟩ : Ref (Val T))] (refs w t2 k') L))
        exact b2.permL (List.perm_append_comm_assoc _ [(⟨nr, .node R, 0, false⟩ : Ref (Val T))] _)
      have hm : (⟨w.tail, .node t2.tail, 0, false⟩ : Ref (Val T)) ∈ ⟨nr, .node R, 0, false⟩ :: (refs w t2 0 ++ L) := by simp [refs]
      refine out_bind (out_mono (inc_mem hi1' hm (unowned hi1' hm rfl) 0) (fun _ _ h => h) (fun _ h => h.elim)) ?_
      rintro s2 _ ⟨hi2, hk2⟩
      refine .inl ⟨⟨v.size + w.size, _, R, t2.tail⟩, ⟨pre ++ tl, utl, rfl, by simp [hsz, hsw']; omega, hq.tail, hq.le, fun h => absurd h hutne, .inr ⟨M, a2, a3⟩⟩, by simp only; omega, ⟨rfl, rfl⟩, ?_, ?_⟩
      · have b := retok2 (v := w) (t := t2) (w := ⟨v.size + w.size, sh, nr, w.tail⟩) (t2 := ⟨v.size + w.size, sh, R, t2.tail⟩) (L := L) hg (k1 := 0) (k2 := 0) k k' (hi2.permL (List.Perm.swap _ _ _))
        exact b
      · refine hk1.trans (kept_ptr (ptr_refs k' 0 fun r hr => ⟨r, hr, rfl⟩) (Kept.tail hk2))
    · rw [if_neg hfull]
      have hf0 : 2 ^ c.BL < tl.length + utl.length → s.fault = none := fun hlt => by
        refine hF _ hq.off' hp.off' ?_ ?_ <;> rw [hp.rest]
        · exact hfull
        · rw [hsw']; exact hlt
      have hmt := mutableTail_out (c := c) hE hgc rfl hp.le h1
      have hlat := calm_fmutableTail (c := c) (E := E) (e := k) v tl.length s
      refine out_bind (Q := fun s' v' => ∃ q cl, v' = { v with tail := q } ∧ Opened c E u k O (⟨v.root, .node t.root, k, false⟩ :: (refs w t2 k' ++ L)) tl s'.mem q cl ∧ Kept (sys c E u) O (⟨v.root, .node t.root, k, false⟩ :: (refs w t2 k' ++ L)) s.mem s'.mem ∧ (2 ^ c.BL < tl.length + utl.length → s'.fault = none)) ?_ ?_
      · cases hres : Vc.mutableTail c E k v tl.length s with
        | ok s1 x =>
          rw [hres] at hmt hlat
          obtain ⟨q, cl, b1, b2, b3⟩ := hmt
          exact ⟨q, cl, b1, b2, b3, fun h => hlat.none (hf0 h)⟩
        | thrown s1 => rw [hres] at hmt; exact Gone.permL hmt hsp.symm
        | ub => rw [hres] at hmt; exact hmt
      · rintro s1 _ ⟨q, cl, rfl, ho, hk1, hf1⟩
        have hat2 : At (sys c E u) s1.mem (refs w t2 k' ++ L) w.tail (.node (.leaf utl)) := by
          have hm : (⟨w.tail, .node (.leaf utl), k', false⟩ : Ref (Val T)) ∈ refs w t2 k' ++ L := by rw [← hq.tail]; simp [refs]
          refine At.kept (m := s.mem) ⟨⟨_, hm, .here⟩, ?_, (refs_ok h' hwL').2.unowned⟩ (Kept.tail hk1)
          rw [← hq.tail]
          exact (refs_ok h' hwL').2.den
        obtain ⟨c2, hc2, _, hx2, hnO⟩ := at_leaf ho.inv (hat2.mono fun r hr => List.mem_cons_of_mem _ hr)
        rw [bind_ok (canMutate_eq hc2)]
        show Out (M.bind (attempt _) _ s1) _ _
        rw [show ({ v with tail := q } : Vc).size - pre.length = tl.length from hp.rest, hsw']
        have hkL : Kept (sys c E u) O (refs w t2 k' ++ L) s.mem s1.mem := Kept.tail hk1
        by_cases hmm : (mv && mutable E k c2) = true
        · rw [if_pos hmm]
          simp only [Bool.and_eq_true] at hmm
          refine out_bind (out_mono (tailMove_out hB0 hE hg hi hv hp htne hfull hutne hq ho hc2 hmm.2 hf1) (fun _ _ h => h) (fun _ h => h.elim)) ?_
          rintro s2 (_ | x) hx
          · exact hx.elim
          · obtain ⟨b1, m1, b2, t', b3, b4, b5⟩ := hx
            exact .inr ⟨hmm.1, rfl, ⟨utl, hq⟩, b1, m1, (Kept.mono hkL (fun r hr => List.mem_append_right _ hr) (fun _ h => h)).trans b2, t', b3, by omega, b5⟩
        · rw [if_neg hmm]
          refine out_bind (out_mono (tailCopy_out hB0 hE hg hi hv hp htne hfull hutne hq.le ho hat2 hf1) (fun _ _ h => h) (fun _ h => h.elim)) ?_
          rintro s2 (_ | x) hx
          · obtain ⟨t', b3, b4, b5, b6, b7⟩ := hx
            exact .inl ⟨t', b3, by omega, b5, b6, hkL.trans b7⟩
          · obtain ⟨t', b3, b4, b5, b6, b7⟩ := hx
            exact .inl ⟨t', b3, by omega, b5, b6, hkL.trans b7⟩
  · rw [if_neg hr0, hp.rest]
    refine out_bind (out_mono (trees_out hB hE hp hq htne (by rintro rfl; simp at hr0) h' hvL' hwL' h32 hs32 hgc) (fun _ _ h => h) (fun _ h => gone h)) ?_
    intro s1 x hx
    refine out_bind (out_mono (treesTail_out hq hutne hwL' hx) (fun _ _ h => h) (fun _ h => h.elim)) ?_
    rintro s2 _ ⟨t', a1, a2, a3, a4, a5⟩
    exact dropv (x := ⟨v.size + w.size, x.1, x.2, w.tail⟩) (by rw [← List.append_assoc]; exact a1) (by omega) ⟨by rw [hsz, hsw, a1.size]; simp only [List.length_append]; omega, a2.symm⟩ a4 a5

end
end FlexHeap
