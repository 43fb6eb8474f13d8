import Verif.FlexHeap.ConcatRoot
import Verif.FlexHeap.Ops
import Verif.Mem.Claim

/-!
# Concatenation with a vector that has a tail only
-/

namespace FlexHeap
open Mm Rrb VecHeap

variable {T : Type} {c : Cfg} {E : Env Dat T} {u : Toks E.gc} {O : List Nat} {L : List (Ref (Val T))}

section
variable {s : St Dat T} {m : Mem Dat T} {p q n i k e a : Nat} {xs ys tl utl pre l : List T} {t : Tree T} {v w : Vc} {own : Option Nat}

/-- `copy_leaf(src1, n1, src2, n2)` -/
theorem copyLeaf2_raw (hE : E.Fresh) {src1 src2 : Nat} {c1 c2 : Cell Dat T} (h : Inv (sys c E u) s.mem O L) (h1 : s.mem src1 = some c1) (hx : Elems c1.els xs) (h2 : s.mem src2 = some c2) (hy : Elems c2.els ys)
    (hn : n = xs.length) (hk : k ≤ ys.length) (hb : n + k ≤ 2 ^ c.BL) :
    Out (copyLeaf2 c E own src1 n src2 k s) (fun s' q => s.mem q = none ∧ s'.mem = upd s.mem q (some (leafCell c E own (n + k) (xs ++ ys.take k)))) (fun s' => s'.mem = s.mem) := by
  unfold copyLeaf2
  refine out_bind (newLeaf_out hE h) ?_
  rintro s1 q ⟨hq, hs1⟩
  have hne1 : src1 ≠ q := by rintro rfl; rw [h1] at hq; cases hq
  have hne2 : src2 ≠ q := by rintro rfl; rw [h2] at hq; cases hq
  have hcap := capL_le (E := E) (own := own) hb
  have hlk : (ys.take k).length = k := by rw [List.length_take]; omega
  have hcq : s1.mem q = some ⟨1, VecHeap.tk E own, List.replicate (capL c E own (n + k)) .raw, .leaf⟩ := by rw [hs1]; exact upd_self
  have hfree : ∀ (s' : St Dat T), s'.mem = s1.mem → freeLeaf c E own q (n + k) s' = .ok { s' with mem := upd s'.mem q none } () ∧ upd s'.mem q none = s.mem := by
    intro s' hs'
    refine ⟨?_, by rw [hs', hs1, upd_upd, upd_same hq]⟩
    unfold freeLeaf
    refine dealloc_eq (c := ⟨1, VecHeap.tk E own, List.replicate (capL c E own (n + k)) .raw, .leaf⟩) (by rw [hs']; exact hcq) ?_ rfl
    cases own <;> rfl
  have hmid : List.replicate (capL c E own (n + k)) (Slot.raw (T := T)) = List.replicate n .raw ++ (List.replicate k .raw ++ List.replicate (capL c E own (n + k) - (n + k)) .raw) := by
    rw [List.replicate_append_replicate, List.replicate_append_replicate]
    congr 1
    omega
  refine out_bind (out_guard (E' := fun s' => s'.mem = s1.mem) (E := fun s' => s'.mem = s.mem)
    (uninitCopy_out (pre := []) (post := List.replicate k .raw ++ List.replicate (capL c E own (n + k) - (n + k)) .raw) (ys := xs) hne1 hcq rfl (by rw [hs1, upd_ne hne1]; exact h1) hn ?_ (by
      rw [List.nil_append]; exact hmid) |> fun h => out_mono h (fun _ _ h => h) (fun _ h => h.1)) ?_) ?_
  · intro j hj
    rw [Nat.zero_add, hx.get (by omega)]
  · intro s' hs'
    rw [(hfree s' hs').1]
    exact (hfree s' hs').2
  · rintro s2 _ ⟨hs2, -⟩
    have hc2 : s2.mem q = some ⟨1, VecHeap.tk E own, [] ++ xs.map .live ++ (List.replicate k .raw ++ List.replicate (capL c E own (n + k) - (n + k)) .raw), .leaf⟩ := by rw [hs2]; exact upd_self
    refine out_bind (out_guard (E' := fun s' => s'.mem = s2.mem) (E := fun s' => s'.mem = s.mem)
      (uninitCopy_out (pre := xs.map .live) (post := List.replicate (capL c E own (n + k) - (n + k)) .raw) (ys := ys.take k) hne2 hc2 (by simpa using hn) (by rw [hs2, upd_ne hne2, hs1, upd_ne hne2]; exact h2) hlk.symm ?_ (by
        simp) |> fun h => out_mono h (fun _ _ h => h) (fun _ h => h.1)) ?_) ?_
    · intro j hj
      rw [Nat.zero_add, hy.get (by omega), List.getElem?_take_of_lt hj]
    · intro s' hs'
      have hc' : s'.mem q = _ := (congrFun hs' q).trans hc2
      rw [bind_ok (destroyN_eq (xs.map .live) [] _ 0 n s' _ hc' rfl rfl (by simpa using hn) (live_there _))]
      obtain ⟨h1, h2⟩ := hfree { s' with mem := upd s'.mem q (some ⟨1, VecHeap.tk E own, [] ++ List.replicate n .raw ++ (List.replicate k .raw ++ List.replicate (capL c E own (n + k) - (n + k)) .raw), .leaf⟩) } (by
        show upd s'.mem q _ = s1.mem
        rw [hs', hs2, upd_upd, List.nil_append, ← hmid]
        exact upd_same hcq)
      rw [h1]
      exact h2
    · rintro s3 _ ⟨hs3, -⟩
      refine ⟨hq, ?_⟩
      show s3.mem = _
      rw [hs3, hs2, hs1, upd_upd, upd_upd]
      unfold leafCell
      congr 2
      simp [hlk, hn]

/-- `copy_leaf(src, idx, last)`, with the cell it makes -/
theorem copyLeafI_cell (hE : E.Fresh) {src : Nat} {cl : Cell Dat T} (h : Inv (sys c E u) s.mem O L) (hc : s.mem src = some cl) (hx : ∀ j, i ≤ j → j < n → cl.els[j]? = (xs[j]?).map .live) (hn : n = xs.length) (hb : n ≤ 2 ^ c.BL) :
    Out (copyLeafI c E own src i n s) (fun s' q => s.mem q = none ∧ s'.mem = upd s.mem q (some (leafCell c E own (n - i) (xs.drop i)))) (fun s' => s'.mem = s.mem) := by
  have hdl : (xs.drop i).length = n - i := by rw [List.length_drop, hn]
  unfold copyLeafI
  refine out_bind (newLeaf_out hE h) ?_
  rintro s1 q ⟨hq, hs1⟩
  have hne : src ≠ q := by rintro rfl; rw [hc] at hq; cases hq
  have hcap := capL_le (E := E) (own := own) (show n - i ≤ 2 ^ c.BL by omega)
  refine out_bind (out_guard (E' := fun s' => s'.mem = s1.mem) (E := fun s' => s'.mem = s.mem) (Q := fun s' _ => s'.mem = upd s.mem q (some (leafCell c E own (n - i) (xs.drop i)))) ?_ ?_) ?_
  · refine out_mono (uninitCopy_out (pre := []) (post := List.replicate (capL c E own (n - i) - (n - i)) .raw) (ys := xs.drop i) hne (by rw [hs1]; exact upd_self) rfl (by rw [hs1, upd_ne hne]; exact hc)
      hdl.symm ?_ ?_) ?_ (fun _ h => h.1)
    · intro j hj
      rw [hx _ (by omega) (by omega), List.getElem?_drop]
    · show List.replicate _ _ = _
      rw [List.nil_append, List.replicate_append_replicate]
      congr 1
      omega
    · rintro s' _ ⟨h1, _⟩
      rw [h1, hs1, upd_upd]
      unfold leafCell
      rw [hdl]
      rfl
  · intro s' hs'
    have hq' : s'.mem q = some ⟨1, VecHeap.tk E own, List.replicate (capL c E own (n - i)) .raw, .leaf⟩ := by rw [hs', hs1]; exact upd_self
    have : freeLeaf c E own q (n - i) s' = .ok { s' with mem := upd s'.mem q none } () := by
      unfold freeLeaf
      refine dealloc_eq hq' ?_ rfl
      cases own <;> rfl
    rw [this]
    show upd s'.mem q none = s.mem
    rw [hs', hs1, upd_upd, upd_same hq]
  · intro s' _ hs'
    exact ⟨hq, hs'⟩

/-- shift, root and tail of a new vector -/
def Joint (c : Cfg) (E : Env Dat T) (u : Toks E.gc) (O : List Nat) (L : List (Ref (Val T))) (m0 : Mem Dat T) (b : Nat) (es : List T) (s' : St Dat T) (x : Nat × Nat × Nat) : Prop :=
  ∃ t' : Tree T, Flex.Inv c t' es ∧ t'.shift = x.1 ∧ x.1 ≤ b ∧ Inv (sys c E u) s'.mem O (⟨x.2.1, .node t'.root, 0, false⟩ :: ⟨x.2.2, .node t'.tail, 0, false⟩ :: L) ∧ Kept (sys c E u) O L m0 s'.mem

theorem delLeaf_cell (h : Inv (sys c E u) s.mem (p :: O) L) {cl : Cell Dat T} (hc : s.mem p = some cl) (hs : Same (leafCell c E own n xs) cl) (hn : n = xs.length) (hb : n ≤ 2 ^ c.BL) (ho : E.gc = true → own = none) :
    Out (delLeaf c E p n s) (fun s' _ => Gone c E u O L s.mem s'.mem) (fun _ => False) := by
  refine delLeaf_open (xs := xs) h hc hs.1 (by rw [hs.2.1]; exact ⟨_, rfl⟩) hn.symm ?_
  rw [hs.2.1, hs.2.2, leafCell_length (by omega) hb]
  by_cases hg : E.gc = true
  · rw [ho hg]
    simp [leafCell, VecHeap.tk_none, capL]
  · have hg : E.gc = false := by simpa using hg
    rw [capL_rc hg, hg]
    simp [leafRoom_rc hg]

theorem close_cell (h : Inv (sys c E u) m (p :: O) L) (hc : m p = some (leafCell c E own n xs)) (hx : xs.length ≤ n) (hn : n ≤ 2 ^ c.BL) (ht : E.gc = true → own = none) :
    Inv (sys c E u) m O (⟨p, .node (.leaf xs), 0, false⟩ :: L) := by
  have hlen := leafCell_length (c := c) (E := E) (own := own) hx hn
  refine VecHeap.retok (close_leaf (t := 0) h hc rfl ⟨_, rfl⟩ (fun _ => rfl) ?_ ?_ ?_) (fun _ => rfl) false (fun h => by cases h)
  · intro hg; rw [hlen]; exact capL_rc hg
  · intro hne; rw [hlen]; exact capL_tk hne
  · intro hg; rw [ht hg]; exact tk_none

/-- the tail of `concat` -/
theorem concatTail_out (hB : 0 < c.B) (hE : E.Fresh) {share : Bool} (ho : E.gc = true → own = none) (hp : FParts c v t pre tl) (hroot : Flex.Root c t.root v.shift pre) (htl : tl ≠ []) (hul : utl.length ≤ 2 ^ c.BL) (hu0 : utl ≠ [])
    (hw : w.size = utl.length) (h : Inv (sys c E u) s.mem O L) (hvL : ∀ r ∈ refs v t 0, r ∈ L) (hwL : (⟨w.tail, .node (.leaf utl), 0, false⟩ : Ref (Val T)) ∈ L) (hsh : share = true ∨ tl.length ≠ 2 ^ c.BL) :
    Out (Fc.concatTail c E own share v pre.length w s) (Joint c E u O L s.mem (v.shift + c.B) (pre ++ tl ++ utl)) (fun s' => Gone c E u O L s.mem s'.mem) := by
  obtain ⟨har, hat⟩ := refs_ok h hvL
  rw [hp.tail] at hat
  have haw : At (sys c E u) s.mem L w.tail (.node (.leaf utl)) := h.at0 hwL u.live0
  have hrL : (⟨v.root, .node t.root, 0, false⟩ : Ref (Val T)) ∈ L := hvL _ (by simp [refs])
  have htL : (⟨v.tail, .node (.leaf tl), 0, false⟩ : Ref (Val T)) ∈ L := by rw [← hp.tail]; exact hvL _ (by simp [refs])
  have ht1 := List.length_pos_iff.2 htl
  have hu1 := List.length_pos_iff.2 hu0
  have hle := hp.le
  unfold Fc.concatTail
  rw [hp.rest]
  by_cases hfull : tl.length = 2 ^ c.BL
  · rw [if_pos hfull]
    have hsh : share = true := hsh.resolve_right (fun h => h hfull)
    subst hsh
    obtain ⟨s', R, M, a1, a2, a3, a4⟩ := Flex.pushTailRoot_spec hB hroot hfull
    obtain ⟨L0, hL0⟩ : ∃ L0, L.Perm ((⟨v.tail, .node (.leaf tl), 0, false⟩ : Ref (Val T)) :: L0) := by
      obtain ⟨A, B, rfl⟩ := List.append_of_mem htL
      exact ⟨A ++ B, List.perm_middle⟩
    have hr0 : (⟨v.root, .node t.root, 0, false⟩ : Ref (Val T)) ∈ L0 := by
      rcases List.mem_cons.mp (hL0.mem_iff.mp hrL) with h1 | h1
      · obtain ⟨rs, Ns, he⟩ := hp.inner
        rw [he] at h1
        simp at h1
      · exact h1
    have h' := h.permL hL0
    refine out_bind (out_mono (fcPushTail_out hB hE hp hfull a1 rfl h' hr0) (fun _ _ h => h) (fun _ hg => Gone.permL hg hL0.symm)) ?_
    rintro s1 ⟨sh, nr⟩ ⟨rfl, hi1, hk1, hf1, hne1⟩
    obtain ⟨b3, b4⟩ := restore (L2 := ⟨nr, .node R, 0, false⟩ :: L0) (hat.mono (fun r hr => hL0.mem_iff.mp hr)) hk1 hf1 hne1.symm List.mem_cons_self rfl
    simp only [if_true]
    refine out_bind (out_mono (inc_ref hi1 b3 b4 0) (fun _ _ h => h) (fun _ h => h.elim)) ?_
    rintro s2 _ ⟨hi2, hk2⟩
    have hk12 := hk1.trans (Kept.from (rt := ⟨v.tail, .node (.leaf tl), 0, false⟩) hk2 hf1)
    have hi2' : Inv (sys c E u) s2.mem O (⟨nr, .node R, 0, false⟩ :: L) := hi2.permL ((List.Perm.swap _ _ _).trans (hL0.symm.cons _))
    have hm2 : (⟨w.tail, .node (.leaf utl), 0, false⟩ : Ref (Val T)) ∈ ⟨nr, .node R, 0, false⟩ :: L := List.mem_cons_of_mem _ hwL
    refine out_bind (out_mono (inc_mem hi2' hm2 (unowned hi2' hm2 rfl) 0) (fun _ _ h => h) (fun _ h => h.elim)) ?_
    rintro s3 _ ⟨hi3, hk3⟩
    refine ⟨⟨pre.length + tl.length + utl.length, _, R, .leaf utl⟩, ⟨pre ++ tl, utl, rfl, by simp; omega, rfl, hul, fun h => absurd h hu0, .inr ⟨M, a2, a3⟩⟩, rfl, a4, hi3.permL (List.Perm.swap _ _ _), ?_⟩
    exact (Kept.permL hk12 hL0.symm).trans (Kept.tail hk3)
  · rw [if_neg hfull, hw]
    obtain ⟨c1, hc1, _, hx1, _⟩ := at_leaf h hat
    obtain ⟨c2, hc2, _, hx2, _⟩ := at_leaf h haw
    by_cases hfit : tl.length + utl.length ≤ 2 ^ c.BL
    · rw [if_pos hfit]
      refine out_bind (out_mono (copyLeaf2_raw (own := none) hE h hc1 hx1 hc2 hx2 rfl (le_refl _) hfit) (fun _ _ h => h) (fun _ he => gone_of_eq h he)) ?_
      rintro s1 q ⟨hq, hs1⟩
      rw [List.take_length] at hs1
      have hi1 : Inv (sys c E u) s1.mem O (⟨q, .node (.leaf (tl ++ utl)), 0, false⟩ :: L) := by
        rw [hs1]
        exact VecHeap.retok (close_new (t := 0) h hq (by simp) hfit (fun _ => rfl)) (fun _ => rfl) false (fun h => by cases h)
      have hk1 : Kept (sys c E u) O L s.mem s1.mem := by rw [hs1]; exact Kept.new h hq _
      have hm : (⟨v.root, .node t.root, 0, false⟩ : Ref (Val T)) ∈ ⟨q, .node (.leaf (tl ++ utl)), 0, false⟩ :: L := List.mem_cons_of_mem _ hrL
      refine out_bind (out_mono (inc_mem hi1 hm (unowned hi1 hm rfl) 0) (fun _ _ h => h) (fun _ h => h.elim)) ?_
      rintro s2 _ ⟨hi2, hk2⟩
      refine ⟨⟨pre.length + tl.length + utl.length, v.shift, t.root, .leaf (tl ++ utl)⟩, ⟨pre, tl ++ utl, by simp, by simp; omega, rfl, by simpa using hfit, by simp [htl], hroot⟩, rfl, by simp only; omega, hi2, hk1.trans (Kept.tail hk2)⟩
    · rw [if_neg hfit]
      have hk : 2 ^ c.BL - tl.length ≤ utl.length := by omega
      have hs2 : tl.length + (2 ^ c.BL - tl.length) = 2 ^ c.BL := by omega
      have hA : (tl ++ utl.take (2 ^ c.BL - tl.length)).length = 2 ^ c.BL := by simp; omega
      obtain ⟨s', R, M, a1, a2, a3, a4⟩ := Flex.pushTailRoot_spec hB hroot hA
      refine out_bind (out_mono (copyLeaf2_raw (own := own) hE h hc1 hx1 hc2 hx2 rfl hk (by omega)) (fun _ _ h => h) (fun _ he => gone_of_eq h he)) ?_
      rintro s1 a ⟨hq1, hs1⟩
      rw [hs2] at hs1
      have hca : s1.mem a = some (leafCell c E own (2 ^ c.BL) (tl ++ utl.take (2 ^ c.BL - tl.length))) := by rw [hs1]; exact upd_self
      have hi1 : Inv (sys c E u) s1.mem (a :: O) L := by rw [hs1]; exact h.alloc hq1 _
      have hk1 : Kept (sys c E u) O L s.mem s1.mem := by rw [hs1]; exact Kept.new h hq1 _
      have hna : w.tail ≠ a := by rintro he; rw [← he, hc2] at hq1; cases hq1
      have hc2' : s1.mem w.tail = some c2 := by rw [hs1, upd_ne hna]; exact hc2
      refine out_guard (E' := fun s' => Inv (sys c E u) s'.mem (a :: O) L ∧ Kept (sys c E u) O L s.mem s'.mem ∧ ∃ cl, s'.mem a = some cl ∧ Same (leafCell c E own (2 ^ c.BL) (tl ++ utl.take (2 ^ c.BL - tl.length))) cl) ?_ ?_
      · refine out_bind (out_mono (copyLeafI_cell (own := own) (i := 2 ^ c.BL - tl.length) hE hi1 hc2' (fun j _ hj => hx2.get hj) rfl hul) (fun _ _ h => h) ?_) ?_
        · intro s' he
          rw [he]
          exact ⟨hi1, hk1, _, hca, .rfl'⟩
        · rintro s2 nt ⟨hq2, hs2'⟩
          have hcn : s2.mem nt = some (leafCell c E own (utl.length - (2 ^ c.BL - tl.length)) (utl.drop (2 ^ c.BL - tl.length))) := by rw [hs2']; exact upd_self
          have hne : a ≠ nt := by rintro rfl; rw [hca] at hq2; cases hq2
          have hca2 : s2.mem a = some (leafCell c E own (2 ^ c.BL) (tl ++ utl.take (2 ^ c.BL - tl.length))) := by rw [hs2', upd_ne hne]; exact hca
          have hi2 : Inv (sys c E u) s2.mem (a :: nt :: O) L := by
            rw [hs2']
            exact (hi1.alloc hq2 _).perm (List.Perm.swap _ _ _) (List.Perm.refl _)
          have hk2 : Kept (sys c E u) O L s.mem s2.mem := hk1.trans (by rw [hs2']; exact Kept.open (Kept.new hi1 hq2 _))
          have hi2' : Inv (sys c E u) s2.mem (nt :: O) (⟨a, .node (.leaf (tl ++ utl.take (2 ^ c.BL - tl.length))), 0, false⟩ :: L) := close_cell hi2 hca2 (by omega) (le_refl _) ho
          have hp' : FParts c ⟨pre.length + 2 ^ c.BL, v.shift, v.root, a⟩ ⟨pre.length + 2 ^ c.BL, v.shift, t.root, .leaf (tl ++ utl.take (2 ^ c.BL - tl.length))⟩ pre (tl ++ utl.take (2 ^ c.BL - tl.length)) := by
            refine ⟨?_, by rw [hA], rfl, by omega, by simp [htl], hp.root⟩
            exact Flex.tailOffset_ok (tl := tl ++ utl.take (2 ^ c.BL - tl.length)) (by rw [List.length_append, hA]) (by omega) (by simp [htl]) hroot
          have hpt := fcPushTail_out (v := ⟨pre.length + 2 ^ c.BL, v.shift, v.root, a⟩) (s := s2) hB hE hp' hA a1 rfl hi2' hrL
          rw [hA] at hpt
          have hdl : (utl.drop (2 ^ c.BL - tl.length)).length = utl.length - (2 ^ c.BL - tl.length) := by simp
          refine out_guard (E' := fun s' => Gone c E u (nt :: O) (⟨a, .node (.leaf (tl ++ utl.take (2 ^ c.BL - tl.length))), 0, false⟩ :: L) s2.mem s'.mem) ?_ ?_
          · refine out_bind hpt ?_
            rintro s3 ⟨sh, nr⟩ ⟨rfl, hi3, hk3, hf3, hne3⟩
            have hcn3 : s3.mem nt = _ := (hk3.2 nt List.mem_cons_self).trans hcn
            have hi4 := close_cell hi3 hcn3 (by omega) (by omega) ho
            refine ⟨⟨pre.length + tl.length + utl.length, _, R, .leaf (utl.drop (2 ^ c.BL - tl.length))⟩, ⟨pre ++ (tl ++ utl.take (2 ^ c.BL - tl.length)), utl.drop (2 ^ c.BL - tl.length), by simp, by simp; omega, rfl, by omega, ?_, .inr ⟨M, a2, a3⟩⟩, rfl, a4, hi4.permL (List.Perm.swap _ _ _), ?_⟩
            · intro he
              rw [he] at hdl
              simp at hdl
              omega
            · exact hk2.trans (Kept.open (Kept.tail hk3))
          · intro s3 hg3
            have hcn3 : s3.mem nt = _ := (hg3.2.2 nt List.mem_cons_self).trans hcn
            refine out_mono (delLeaf_cell hg3.1 hcn3 .rfl' hdl.symm (by omega) ho) ?_ (fun _ h => h)
            rintro s4 _ hg4
            have hk24 : Kept (sys c E u) O (⟨a, .node (.leaf (tl ++ utl.take (2 ^ c.BL - tl.length))), 0, false⟩ :: L) s2.mem s4.mem := (Kept.open hg3.2).trans hg4.2
            obtain ⟨cl, hcl, hsm⟩ := hk24.1 a ⟨_, List.mem_cons_self, .here⟩ _ hca2
            have hnr : ¬ Reach (sys c E u) s4.mem L a := by
              intro hr
              have := Kept.back hi2 (Kept.tail hk24) hr
              exact hi2.reach_notin this List.mem_cons_self
            have hcl2 := hg4.1.claim (ranked c E u) hnr
            obtain ⟨Lo, h1, h2, h3, h4⟩ := hcl2.open_ hcl (.inr (.inr rfl))
            have : Lo = [] := by
              rw [show (sys c E u).outs cl.data = outsD cl.data from rfl, hsm.1] at h1
              simpa [leafCell, outsD] using h1.symm
            subst this
            exact ⟨h4, hk2.trans (Kept.tail hk24), cl, hcl, hsm⟩
      · rintro s5 ⟨hi5, hk5, cl, hcl, hsm⟩
        refine out_mono (delLeaf_cell hi5 hcl hsm hA.symm (le_refl _) ho) ?_ (fun _ h => h)
        rintro s6 _ hg
        exact ⟨hg.1, hk5.trans hg.2⟩

end
end FlexHeap
