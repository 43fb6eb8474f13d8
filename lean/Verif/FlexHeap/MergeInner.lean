import Verif.FlexHeap.MergeLeaf

/-!
# `concat_merger` on memory: inner nodes
-/

namespace FlexHeap
open Mm Rrb VecHeap

variable {T : Type} {c : Cfg} {E : Env Dat T} {u : Toks E.gc} {O : List Nat} {L : List (Ref (Val T))}

section
variable {s : St Dat T} {m m' : Mem Dat T} {p q n i t k l e : Nat} {N : Node T} {part : List (Node T)} {r : Ref (Val T)} {hm : HMerger} {vm vm' : Merger T}

/-- the inner node being filled, with room for `k` children -/
def OpD (c : Cfg) (E : Env Dat T) (u : Toks E.gc) (l : Nat) (m : Mem Dat T) (O : List Nat) (L : List (Ref (Val T))) (hm : HMerger) (vm : Merger T) (q k : Nat) (part : List (Node T)) : Prop :=
  ∃ t cl ct cap Ld, k ≤ cap ∧ cl.tok = 0 ∧ ct.tok = 0 ∧ OpC c E m q cl cap (some t) Ld part ∧ Tb c E m t ct cap (psums 0 (part.map fun x => (els l x).length)) ∧
    Par c E u (l + 1) m (q :: t :: O) (Ld ++ L) hm vm

/-- it is finished -/
theorem OpD.close (h : OpD c E u l m O L hm vm q k part) : Par c E u (l + 1) m O (⟨q, .node (relOf l part), 0, true⟩ :: L) hm vm := by
  obtain ⟨t, cl, ct, cap, Ld, _, hcl, hct, ho, hT, hpar⟩ := h
  refine hpar.frame ?_ (fun _ _ _ => rfl)
  intro O1 L1 hi
  have hi' : Inv (sys c E u) m (q :: t :: (O1 ++ O)) (Ld ++ (L1 ++ L)) := hi.perm (by
    exact List.perm_middle.trans (List.Perm.cons _ List.perm_middle)) (by
    rw [← List.append_assoc, ← List.append_assoc]
    exact List.Perm.append_right _ List.perm_append_comm)
  have := OpG.closeT (ho.g hi') hT (fun _ => by rw [hcl, hct]) (k := 0) (fun _ => hcl)
  exact this.permL List.perm_middle.symm

theorem OpD.fields (h : OpD c E u l m O L hm vm q k part) {hm' : HMerger} {vm' : Merger T} (h1 : hm'.nodes = hm.nodes) (h2 : hm'.sizes = hm.sizes) (h3 : hm'.curr = hm.curr) (h4 : hm'.n = hm.n) (h5 : hm'.shift = hm.shift)
    (h6 : vm'.cs = vm.cs) (h7 : vm'.sz = vm.sz) (h8 : vm'.n = vm.n) (h9 : vm'.prev = vm.prev) (h10 : vm'.prevSizes = vm.prevSizes) (h11 : vm'.size = vm.size) (h12 : vm'.curr = vm.curr) :
    OpD c E u l m O L hm' vm' q k part := by
  obtain ⟨t, cl, ct, cap, Ld, a1, a2, a3, a4, a5, a6⟩ := h
  exact ⟨t, cl, ct, cap, Ld, a1, a2, a3, a4, a5, a6.fields h1 h2 h3 h4 h5 h6 h7 h8 h9 h10 h11 h12⟩

/-- `abort` with an inner node being filled -/
theorem abortInner (hB : 0 < c.B) (h : Par c E u (l + 1) s.mem O (r :: L) hm vm) (hv : PVals c (l + 1) vm) (hr : r.val = .node (relOf l part)) (hw : ∀ x ∈ part, WF c l x) (hd : hm.dst = some r.ptr) :
    Out (hm.abort c E s) (fun s' _ => Gone c E u O L s.mem s'.mem) (fun _ => False) := by
  unfold HMerger.abort
  obtain ⟨p, t, cl, ct, cap, Lp, Pr, hp, hi⟩ := h
  have hmul : c.B * (l + 1) = c.B * l + c.B := by rw [Nat.mul_add, Nat.mul_one]
  have hsh : hm.shift - c.B = c.BL + c.B * (l + 1) := by rw [hp.shift, shift_sub]
  rw [hd]
  simp only
  rw [if_neg (by rw [hsh]; omega), hsh, shift_sub, levels_shift hB]
  have hi' : Inv (sys c E u) s.mem (p :: t :: O) (r :: (Lp ++ (Pr ++ L))) := hi.permL (by
    have := (List.perm_middle (a := r) (l₁ := Lp ++ Pr) (l₂ := L))
    simpa [List.append_assoc] using this)
  have hden := hi'.den List.mem_cons_self
  rw [hr] at hden
  obtain ⟨cl', cap', rr, ks, hc, hdt, _, hs, ht, _⟩ := den_inner hden
  cases rr with
  | none => cases hs
  | some t' =>
    refine out_bind (Q := fun s1 _ => Gone c E u (p :: t :: O) (Lp ++ (Pr ++ L)) s.mem s1.mem) ?_ ?_
    · rw [bind_ok (theTable_eq hc hdt), bind_ok (sizesOf_den (ht t' rfl _ rfl))]
      exact decRel_out hB hr hw hi'
    intro s1 _ hg1
    have hpar : Par c E u (l + 1) s1.mem O L hm vm :=
      ⟨p, t, cl, ct, cap, Lp, Pr, { hp with op := hp.op.mem (hg1.2.2 p (by simp)), tb := hp.tb.mem (hg1.2.2 t (by simp)) }, hg1.1⟩
    have := hpar.abort hB hv
    rw [hsh] at this
    refine out_mono this ?_ (fun _ h => h)
    intro s2 _ hg2
    exact ⟨hg2.1, (hg1.2.mono (fun x hx => by simp [hx]) (fun a ha => by simp [ha])).trans hg2.2⟩

/-- `add_child` for the inner node being filled -/
theorem addDstInner (hB : 0 < c.B) (hE : E.Fresh) (h : OpD c E u l s.mem O L hm vm q k part) (hv : PVals c (l + 1) vm) (hd : hm.dst = some q) (hw : ∀ x ∈ part, WF c l x)
    (ha : Merger.addChild c vm (relOf l part) n = some vm') :
    Out (hm.addDst c E q n s) (fun s' hm' => Par c E u (l + 1) s'.mem O L hm' vm' ∧ Kept (sys c E u) O L s.mem s'.mem ∧ hm'.dst = none) (fun s' => Gone c E u O L s.mem s'.mem) := by
  obtain ⟨v1, hr, hput⟩ := addChild_some ha
  have h := h.close
  unfold HMerger.addDst
  refine out_bind (out_guard (mkRoom_out hE h hr) ?_) ?_
  · intro s1 hs1
    refine out_mono (abortInner hB (s := s1) (by rw [hs1]; exact h) hv rfl hw hd) ?_ (fun _ h => h)
    intro s2 _ hg
    rwa [hs1] at hg
  · rintro s1 hm1 ⟨h1, hk1, -, -, -⟩
    refine out_bind (out_mono (put_out (r := ⟨q, .node (relOf l part), 0, true⟩) h1 rfl (fun _ => rfl) (room_len hv.len hr) hput) (fun _ _ h => h) (fun _ h => h.elim)) ?_
    rintro s2 hm2 ⟨h3, hk3, -, -, -⟩
    refine ⟨h3.fields rfl rfl rfl rfl rfl rfl rfl rfl rfl rfl rfl rfl, ?_, rfl⟩
    exact (Kept.tail hk1).trans (Kept.tail hk3)

/-- children are put in the inner node being filled -/
theorem takeKids_out (h : OpD c E u l s.mem O L hm vm q k part) {src off j : Nat} {sh : RShp} {rs : Option (List Nat)} {Ns : List (Node T)} (ha : At (sys c E u) s.mem L src (.node (.inner rs Ns))) (hoff : off + j ≤ Ns.length)
    (hk : part.length + j ≤ k) (hne : part ++ (Ns.drop off).take j ≠ [])
    (hs : sh.copySizes off j hm.toSize = some (psums (part.map fun x => (els l x).length).sum (((Ns.drop off).take j).map fun x => (els l x).length))) :
    Out (hm.takeKids E src sh q off j s) (fun s' z => z = ((part ++ (Ns.drop off).take j).flatMap (els l)).length ∧ OpD c E u l s'.mem O L hm vm q k (part ++ (Ns.drop off).take j) ∧ Kept (sys c E u) O L s.mem s'.mem)
      (fun _ => False) := by
  obtain ⟨td, cd, ctd, capd, Ld, hcap, hcl, hct, ho, hT, p, t, cl, ct, cap, Lp, Pr, hp, hi⟩ := h
  have hmem : ∀ x ∈ L, x ∈ Lp ++ (Pr ++ (Ld ++ L)) := fun x hx => by simp [hx]
  obtain ⟨cs, cp, rel0, Lc, hc, hd, hv, hO, hx, _⟩ := at_innerG hi (ha.mono hmem)
  have hlen : Lc.length = Ns.length := by simpa using congrArg List.length hv
  have hx' : ∀ x ∈ (Lc.drop off).take j, _ := fun x hm => hx x (List.mem_of_mem_drop (List.mem_of_mem_take hm))
  obtain ⟨h1, h2, h3⟩ := dup_refs hi hx' 0
  have hn := hi.open_nodup
  simp only [List.nodup_cons, List.mem_cons, not_or] at hn
  unfold HMerger.takeKids
  rw [bind_ok (kids_eq hc hd), bind_ok (liftO_eq (b := ((Lc.drop off).take j).map Ref.ptr) (by
    unfold slice
    rw [if_pos ⟨by omega, by rw [List.length_map]; omega⟩, List.map_take, List.map_drop]
    rw [Nat.add_sub_cancel_left]))]
  rw [bind_ok (incAll_eq _ _ (by
    intro a hm
    obtain ⟨x, hxm, rfl⟩ := List.mem_map.mp hm
    exact h3 x hxm))]
  have hq : incs E.gc s.mem (((Lc.drop off).take j).map Ref.ptr) q = some cd := (h2.2 q (by simp)).trans ho.cell
  have hlo : Ld.length = part.length := by simpa using congrArg List.length ho.val
  have hjl : ((Lc.drop off).take j).length = j := by simp; omega
  rw [bind_ok (kids_eq (s := { s with mem := incs E.gc s.mem (((Lc.drop off).take j).map Ref.ptr) }) hq ho.data)]
  rw [bind_ok (setKids_eq (s := { s with mem := incs E.gc s.mem (((Lc.drop off).take j).map Ref.ptr) }) hq ho.data (by simp only [List.length_append, List.length_map]; omega))]
  rw [bind_ok (liftO_eq hs)]
  have hpO : (p :: t :: q :: td :: O).Perm (q :: td :: p :: t :: O) :=
    (List.perm_middle (l₁ := [p, t]) (l₂ := td :: O)).trans (List.Perm.cons _ (List.perm_middle (l₁ := [p, t]) (l₂ := O)))
  have hpL : ∀ X : List (Ref (Val T)), (X ++ (Lp ++ (Pr ++ (Ld ++ L)))).Perm ((Ld ++ X) ++ (Lp ++ (Pr ++ L))) := by
    intro X
    have e1 : X ++ (Lp ++ (Pr ++ (Ld ++ L))) = (X ++ (Lp ++ Pr)) ++ (Ld ++ L) := by simp
    have e2 : (Ld ++ X) ++ (Lp ++ (Pr ++ L)) = Ld ++ ((X ++ (Lp ++ Pr)) ++ L) := by simp
    rw [e1, e2]
    generalize X ++ (Lp ++ Pr) = A
    rw [← List.append_assoc, ← List.append_assoc]
    exact List.Perm.append_right _ List.perm_append_comm
  have hop0 : OpG c E u s.mem (td :: p :: t :: O) (Lp ++ (Pr ++ L)) q cd capd (some td) Ld part := ho.g (hi.perm hpO (by simpa using hpL []))
  have hop := hop0.put (O' := td :: p :: t :: O) (L' := Lp ++ (Pr ++ L)) (Lo' := Ld ++ ((Lc.drop off).take j).map fun x => { x with tok := 0 }) (Ns' := part ++ (Ns.drop off).take j) (some td)
    (h1.perm hpO (hpL _)) (by
      simp only [List.map_append, List.map_map, ho.val, List.map_take, List.map_drop]
      rw [← hv]; rfl) (by
      intro hg x hm
      rcases List.mem_append.mp hm with hm | hm
      · exact ho.tok hg x hm
      · obtain ⟨y, _, rfl⟩ := List.mem_map.mp hm
        exact hcl.symm) (by simp; omega)
  have hpt : (Ld ++ ((Lc.drop off).take j).map fun x => ({ x with tok := 0 } : Ref (Val T))).map Ref.ptr = Ld.map Ref.ptr ++ ((Lc.drop off).take j).map Ref.ptr := by
    rw [List.map_append, List.map_map]; rfl
  rw [hpt] at hop
  obtain ⟨cd1, hcd1⟩ : ∃ x, x = ({ cd with data := .inner capd (some td) (Ld.map Ref.ptr ++ ((Lc.drop off).take j).map Ref.ptr) } : Cell Dat T) := ⟨_, rfl⟩
  rw [← hcd1] at hop ⊢
  have hcd1t : cd1.tok = 0 := by rw [hcd1]; exact hcl
  obtain ⟨m1, hm1⟩ : ∃ x, x = upd (incs E.gc s.mem (((Lc.drop off).take j).map Ref.ptr)) q (some cd1) := ⟨_, rfl⟩
  rw [← hm1] at hop
  simp only
  rw [← hm1]
  have hk1 : Kept (sys c E u) (p :: t :: td :: O) (Lp ++ (Pr ++ L)) s.mem m1 := by
    refine (h2.mono (fun x hx => ?_) (fun a ha => ?_)).trans ?_
    · simp only [List.mem_append] at hx ⊢; tauto
    · simp only [List.mem_cons] at ha ⊢; tauto
    · rw [hm1]
      refine (Kept.write (h1.perm hpO (hpL _)) (some cd1)).mono (fun x hx => List.mem_append_right _ hx) (fun a ha => ?_)
      simp only [List.mem_cons] at ha ⊢; tauto
  have hT1 : Tb c E m1 td ctd capd _ := hT.mem (hk1.2 td (by simp))
  rw [bind_ok (theTable_eq (st := { s with mem := m1 }) hop.cell hop.data), bind_ok (sizesOf_eq (st := { s with mem := m1 }) hT1.cell hT1.data)]
  have hps : psums 0 (part.map fun x => (els l x).length) ++ psums (part.map fun x => (els l x).length).sum (((Ns.drop off).take j).map fun x => (els l x).length) =
      psums 0 ((part ++ (Ns.drop off).take j).map fun x => (els l x).length) := by
    rw [List.map_append, psums_append, Nat.zero_add]
  rw [hps]
  have hle : (psums 0 ((part ++ (Ns.drop off).take j).map fun x => (els l x).length)).length ≤ capd := by
    rw [psums_length]; simp; omega
  rw [bind_ok (setSizes_eq (st := { s with mem := m1 }) hT1.cell hT1.data hle)]
  obtain ⟨h4, h5⟩ := hop.sizes { ctd with data := .table capd (psums 0 ((part ++ (Ns.drop off).take j).map fun x => (els l x).length)) }
  obtain ⟨D, hD⟩ : ∃ D, D = part ++ (Ns.drop off).take j := ⟨_, rfl⟩
  rw [← hD] at h4 h5 hne hle ⊢
  have hlast : (psums 0 (D.map (fun x => (els l x).length))).getLast? = some (D.flatMap (els l)).length := by
    have h1 := psums_getLast (D.map (fun x => (els l x).length)) 0
    rw [sum_els] at h1
    cases hg : (psums 0 (D.map (fun x => (els l x).length))).getLast? with
    | none =>
      rw [List.getLast?_eq_none_iff] at hg
      have := congrArg List.length hg
      rw [psums_length] at this; simp at this; exact absurd this hne
    | some z => rw [hg] at h1; simp at h1; simp [h1]
  rw [liftO_eq hlast]
  have hpD : ∀ D : List (Ref (Val T)), (D ++ (Lp ++ (Pr ++ L))).Perm (Lp ++ (Pr ++ (D ++ L))) := by
    intro D
    rw [← List.append_assoc Lp, ← List.append_assoc Lp, ← List.append_assoc D, ← List.append_assoc (Lp ++ Pr)]
    exact List.Perm.append_right _ List.perm_append_comm
  refine ⟨rfl, ⟨td, cd1, { ctd with data := .table capd (psums 0 (D.map fun x => (els l x).length)) }, capd, _, hcap, hcd1t, hct, h4.opc, hT1.set (m' := m1) hle, p, t, cl, ct, cap, Lp, Pr, { hp with op := hp.op.mem ?_, tb := hp.tb.mem ?_ }, h4.inv.perm hpO.symm (hpD _)⟩, ?_⟩
  · exact (h5.2 p (by simp)).trans (hk1.2 p (by simp))
  · exact (h5.2 t (by simp)).trans (hk1.2 t (by simp))
  · exact (hk1.mono (fun x hx => by simp [hx]) (fun a ha => by simp [ha])).trans (h5.mono (fun x hx => by simp [hx]) (fun a ha => by simp [ha]))

/-- the inner node being filled -/
def DstI (c : Cfg) (E : Env Dat T) (u : Toks E.gc) (l : Nat) (m : Mem Dat T) (O : List Nat) (L : List (Ref (Val T))) (hm : HMerger) (vm : Merger T) (part : List (Node T)) : Prop :=
  (part = [] ∧ hm.dst = none ∧ Par c E u (l + 1) m O L hm vm) ∨
  (part ≠ [] ∧ ∃ q k, hm.dst = some q ∧ hm.toOff = part.length ∧ hm.toSize = (part.map fun x => (els l x).length).sum ∧ vm.curr.head? = some k ∧ OpD c E u l m O L hm vm q k part)

theorem DstI.curr (h : DstI c E u l m O L hm vm part) : hm.curr = vm.curr := by
  rcases h with ⟨-, -, h⟩ | ⟨-, q, k, -, -, -, -, t, cl, ct, cap, Ld, -, -, -, -, -, h⟩ <;>
  · obtain ⟨p, t, cl, ct, cap, Lp, Pr, hp, -⟩ := h
    exact hp.curr

/-- one round of the loop on values -/
theorem innerStep {M rem off : Nat} {out : List (Node T)} {x : Pos T} {ys : List T} {r cs} (hp : PosOK c (l + 1) x ys) (hsub : SubPos x)
    (hn : x.node = .inner r cs) (hwcs : ∀ x ∈ cs, WF c l x) (h : MInner c l M vm out part rem) (hoff : off < cs.length) (hle : cs.length - off ≤ rem) :
    ∃ k ks j, vm.curr = k :: ks ∧ k ≤ 2 ^ c.B ∧ part.length < k ∧ j = min (cs.length - off) (k - part.length) ∧
      Rrb.copySizes x off j (part.map fun x => (els l x).length).sum = some (psums (part.map fun x => (els l x).length).sum (((cs.drop off).take j).map fun x => (els l x).length)) ∧
      (∀ y ∈ part ++ (cs.drop off).take j, WF c l y) ∧
      (k = part.length + j → ∃ m1, Merger.addChild c vm (relOf l (part ++ (cs.drop off).take j)) ((part ++ (cs.drop off).take j).flatMap (els l)).length = some m1 ∧
        MInner c l M { m1 with toInner := none } (out ++ [relOf l (part ++ (cs.drop off).take j)]) [] (rem - j) ∧
        ∀ fuel, Merger.innerLoop c x (fuel + 1) vm off (cs.drop off) =
          if j = cs.length - off then some { m1 with toInner := none } else Merger.innerLoop c x fuel { m1 with toInner := none } (off + j) (cs.drop (off + j))) ∧
      (k ≠ part.length + j → j = cs.length - off ∧
        MInner c l M { vm with toInner := some (psums 0 ((part ++ (cs.drop off).take j).map fun x => (els l x).length), part ++ (cs.drop off).take j) } out (part ++ (cs.drop off).take j) (rem - (cs.length - off)) ∧
        ∀ fuel, Merger.innerLoop c x (fuel + 1) vm off (cs.drop off) =
          some { vm with toInner := some (psums 0 ((part ++ (cs.drop off).take j).map fun x => (els l x).length), part ++ (cs.drop off).take j) }) := by
  have hsum := h.sum
  obtain ⟨k, ks, hcur⟩ : ∃ k ks, vm.curr = k :: ks := by
    cases hc : vm.curr with
    | nil => rw [hc] at hsum; simp at hsum; omega
    | cons k ks => exact ⟨k, ks, rfl⟩
  have hk := h.counts k (by rw [hcur]; simp)
  have hpk : part.length < k := by
    by_cases hp : part = []
    · subst hp; simp; omega
    · obtain ⟨k', ks', h1, h2⟩ := h.room hp
      rw [hcur] at h1; simp at h1; omega
  rw [hcur] at hsum
  simp only [List.sum_cons] at hsum
  have hlen := h.len
  rw [hcur] at hlen; simp at hlen
  refine ⟨k, ks, min (cs.length - off) (k - part.length), hcur, hk.2, hpk, rfl, ?_⟩
  generalize hj : min (cs.length - off) (k - part.length) = j
  have hdl : (part ++ (cs.drop off).take j).length = part.length + j := by simp; omega
  have hcp := hp.copySizes_take hsub hn (k := off) (n := j) (by omega) (part.map fun x => (els l x).length).sum
  have hps : psums 0 (part.map (fun x => (els l x).length)) ++ psums (part.map (fun x => (els l x).length)).sum
      (((cs.drop off).take j).map (fun x => (els l x).length)) =
      psums 0 ((part ++ (cs.drop off).take j).map (fun x => (els l x).length)) := by
    rw [List.map_append, psums_append, Nat.zero_add]
  refine ⟨hcp, ?_⟩
  generalize hD : part ++ (cs.drop off).take j = D at *
  have hDne : D ≠ [] := by rintro rfl; simp at hdl; omega
  have hDw : ∀ x ∈ D, WF c l x := by
    intro x hx; rw [← hD] at hx; simp only [List.mem_append] at hx
    rcases hx with hx | hx
    · exact h.wf x hx
    · exact hwcs x (List.mem_of_mem_drop (List.mem_of_mem_take hx))
  have hlast : (psums 0 (D.map (fun x => (els l x).length))).getLast? = some (D.flatMap (els l)).length := by
    have h1 := psums_getLast (D.map (fun x => (els l x).length)) 0
    rw [sum_els] at h1
    cases hg : (psums 0 (D.map (fun x => (els l x).length))).getLast? with
    | none =>
      rw [List.getLast?_eq_none_iff] at hg
      have := congrArg List.length hg
      rw [psums_length] at this; simp at this; exact absurd this hDne
    | some z => rw [hg] at h1; simp at h1; simp [h1]
  refine ⟨hDw, ?_, ?_⟩
  · intro hfull
    have hfull : k = D.length := by omega
    have hw : WF c (l + 1) (relOf l D) := WF.relaxed hDne (by omega) hDw
    obtain ⟨m1, a1, a2, a3, a4, a5⟩ := addChild_ok h.core (by omega) hw
    rw [relOf_els] at a1
    refine ⟨m1, a1, ?_, ?_⟩
    · refine ⟨⟨a2.grp, a2.sz, a2.cs, a2.size, a2.N3, a2.wf⟩, ?_, ?_, ?_, by simp, ?_, by simp, by simp⟩
      · simp [a3, hcur]; omega
      · intro y hy; simp only [a3, hcur, List.tail_cons] at hy
        exact h.counts y (by rw [hcur]; simp [hy])
      · simp [a3, hcur]; omega
      · simp [a4, h.leaf]
    · intro fuel
      simp only [Merger.innerLoop, hcur, h.getD, List.head?_cons, Option.bind_eq_bind, Option.bind_some, List.length_drop, hj, psums_getLast, Nat.zero_add, hcp, hps, hD, hlast]
      rw [if_pos hfull]
      have ea : (Node.inner (some (psums 0 (D.map (fun x => (els l x).length)))) D) = relOf l D := rfl
      simp only [mkInnerR, if_pos (show D.length ≤ 2 ^ c.B by omega), Option.bind_some, ea, a1, List.drop_drop]
  · intro hfull
    have hfull : k ≠ D.length := by omega
    have hjx : j = cs.length - off := by omega
    refine ⟨hjx, ?_, ?_⟩
    · refine ⟨⟨?_, h.core.sz, h.core.cs, ?_, h.core.N3, ?_⟩, by simp [hcur]; omega, ?_, ?_, ?_, h.leaf, ?_, hDw⟩
      · simpa using h.core.grp
      · simpa using h.core.size
      · simpa using h.core.wf
      · intro y hy; exact h.counts y (by simpa using hy)
      · simp [hcur]; omega
      · simp [hDne]
      · intro _; exact ⟨k, ks, hcur, by omega⟩
    · intro fuel
      simp only [Merger.innerLoop, hcur, h.getD, List.head?_cons, Option.bind_eq_bind, Option.bind_some, List.length_drop, hj, psums_getLast, Nat.zero_add, hcp, hps, hD, hlast]
      rw [if_neg hfull, if_pos hjx]

/-- the loop of `merge_inner` -/
theorem innerLoop_out (hB : 0 < c.B) (hE : E.Fresh) {M src : Nat} {sh : RShp} {ys : List T} {r : Option (List Nat)} {cs : List (Node T)} (hp : PosOK c (l + 1) (sh.pos (.inner r cs)) ys) (hsub : SubPos (sh.pos (.inner r cs)))
    (hwcs : ∀ x ∈ cs, WF c l x) :
    ∀ (fuel : Nat) (hm : HMerger) (vm : Merger T) (out part : List (Node T)) (rem off : Nat) (s : St Dat T), MInner c l M vm out part rem →
    DstI c E u l s.mem O L hm vm part → At (sys c E u) s.mem L src (.node (.inner r cs)) → off < cs.length → cs.length - off ≤ rem → cs.length - off < fuel →
    Out (HMerger.innerLoop c E src sh fuel hm off (cs.length - off) s) (fun s' hm' => ∃ vm' out' part', Merger.innerLoop c (sh.pos (.inner r cs)) fuel vm off (cs.drop off) = some vm' ∧
      MInner c l M vm' out' part' (rem - (cs.length - off)) ∧ DstI c E u l s'.mem O L hm' vm' part' ∧ Kept (sys c E u) O L s.mem s'.mem) (fun s' => Gone c E u O L s.mem s'.mem) := by
  intro fuel
  induction fuel with
  | zero => intro hm vm out part rem off s _ _ _ _ _ h; omega
  | succ fuel ih =>
    intro hm vm out part rem off s h hd ha hoff hle hf
    obtain ⟨k, ks, j, hcur, hk, hpk, hj, hcs, hDw, hfull, hpart⟩ := innerStep hp hsub (rpos_node _ _) hwcs h hoff hle
    have hv := PVals.of h.core
    unfold HMerger.innerLoop
    rw [bind_ok (liftO_eq (b := k) (by rw [hd.curr, hcur]; rfl))]
    refine out_bind (Q := fun s1 r => r.1.toOff = part.length ∧ r.1.toSize = (part.map fun x => (els l x).length).sum ∧ r.1.dst = some r.2 ∧ OpD c E u l s1.mem O L r.1 vm r.2 k part ∧
      Kept (sys c E u) O L s.mem s1.mem) ?_ ?_
    · rcases hd with ⟨rfl, hdst, hpar⟩ | ⟨hne, q, k', hdst, hto, htz, hk', hop⟩
      · rw [hdst]
        obtain ⟨p, t, cl, ct, cap, Lp, Pr, hpc, hi⟩ := id hpar
        refine out_bind (out_guard (newInnerR_out (own := none) (n := k) hE hi) ?_) ?_
        · intro s1 hs1
          refine out_mono (abortNone hB (s := s1) (by rw [hs1]; exact hpar) hv hdst) ?_ (fun _ h => h)
          intro s2 _ hg
          rwa [hs1] at hg
        · rintro s1 d ⟨td, cd, ctd, hop, hT, hcl, hct, hk1, -⟩
          rw [tk_none] at hcl hct
          refine ⟨rfl, rfl, rfl, ⟨td, cd, ctd, _, [], capI_le hk, hcl, hct, hop.opc, hT, p, t, cl, ct, cap, Lp, Pr, ?_, ?_⟩, ?_⟩
          · exact { op := hpc.op.mem (hk1.2 p (by simp)), tb := hpc.tb.mem (hk1.2 t (by simp)), room := hpc.room, clt := hpc.clt, ctt := hpc.ctt, nodes := hpc.nodes, prev := hpc.prev, ptok := hpc.ptok, sizes := hpc.sizes, curr := hpc.curr, n := hpc.n, shift := hpc.shift }
          · refine hop.inv.perm ?_ (List.Perm.refl _)
            exact ((List.perm_middle (l₁ := [p, t]) (l₂ := td :: O)).trans (List.Perm.cons _ (List.perm_middle (l₁ := [p, t]) (l₂ := O)))).symm
          · exact hk1.mono (fun x hx => by simp [hx]) (fun a ha => by simp [ha])
      · rw [hdst]
        rw [hcur] at hk'
        cases hk'
        exact ⟨hto, htz, hdst, hop, .of_eq rfl⟩
    · rintro s1 ⟨hm1, d⟩ ⟨hto, htz, hdst, hop, hk1⟩
      simp only at hto htz hdst hop ⊢
      rw [hto, ← hj]
      have ha1 := ha.kept hk1
      have hlp : (part ++ (cs.drop off).take j).length = part.length + j := by simp; omega
      have hDne : part ++ (cs.drop off).take j ≠ [] := by
        intro h0
        rw [h0] at hlp; simp at hlp; omega
      refine out_bind (out_mono (takeKids_out (j := j) (off := off) hop ha1 (by omega) (by omega) hDne (by rw [htz, ← rpos_copySizes _ (.inner r cs)]; exact hcs)) (fun _ _ h => h) (fun _ h => h.elim)) ?_
      rintro s2 z ⟨rfl, hop2, hk2'⟩
      have hk2 := hk1.trans hk2'
      by_cases hcase : k = part.length + j
      · obtain ⟨m1, ha', hm1', hval⟩ := hfull hcase
        rw [if_pos hcase]
        refine out_bind (out_mono (addDstInner (vm := vm) hB hE (hop2.fields rfl rfl rfl rfl rfl rfl rfl rfl rfl rfl rfl rfl) hv hdst hDw ha') (fun _ _ h => h) (fun _ hg => Gone.trans hk2 hg)) ?_
        rintro s3 hm3 ⟨hpar3, hk3, hd3⟩
        have hd3' : DstI c E u l s3.mem O L hm3 { m1 with toInner := none } [] := .inl ⟨rfl, hd3, hpar3.fields rfl rfl rfl rfl rfl rfl rfl rfl rfl rfl rfl rfl⟩
        by_cases hend : j = cs.length - off
        · rw [if_pos hend]
          refine ⟨{ m1 with toInner := none }, out ++ [relOf l (part ++ (cs.drop off).take j)], [], ?_, ?_, hd3', hk2.trans hk3⟩
          · rw [hval, if_pos hend]
          · rw [← hend]; exact hm1'
        · rw [if_neg hend]
          have hk' := hk2.trans hk3
          have := ih hm3 _ _ [] (rem - j) (off + j) s3 hm1' hd3' (ha.kept hk') (by omega) (by omega) (by omega)
          rw [show cs.length - off - j = cs.length - (off + j) by omega]
          refine out_mono this ?_ (fun _ hg => Gone.trans hk' hg)
          rintro s4 hm4 ⟨vm', out', part', b1, b2, b3, b4⟩
          refine ⟨vm', out', part', ?_, ?_, b3, hk'.trans b4⟩
          · rw [hval, if_neg hend]; exact b1
          · rw [show rem - (cs.length - off) = rem - j - (cs.length - (off + j)) by omega]; exact b2
      · obtain ⟨hjx, hm', hval⟩ := hpart hcase
        rw [if_neg hcase]
        show Out ((if j = cs.length - off then _ else _ : HM T HMerger) s2) _ _
        rw [if_pos hjx]
        refine ⟨_, _, _, hval _, hm', .inr ⟨hDne, d, k, hdst, ?_, ?_, by rw [hcur]; rfl, ?_⟩, hk2⟩
        · show part.length + j = _
          rw [← hlp]
        · show ((part ++ (cs.drop off).take j).flatMap (els l)).length = _
          rw [sum_els]
        · exact hop2.fields rfl rfl rfl rfl rfl rfl rfl rfl rfl rfl rfl rfl

/-- `merge_inner` -/
theorem mergeInner_out (hB : 0 < c.B) (hE : E.Fresh) {M rem : Nat} {out : List (Node T)} {x : HPos} (h : MInner c l M vm out part rem) (hd : DstI c E u l s.mem O L hm vm part) (hp : PosR c E u s.mem L (l + 1) x N)
    (hle : (Rrb.kids N).length ≤ rem) :
    Out (hm.mergeInner c E x.1 x.2 s) (fun s' hm' => ∃ vm' out' part', Merger.mergeInner c vm (x.2.pos N) = some vm' ∧ MInner c l M vm' out' part' (rem - (Rrb.kids N).length) ∧
      DstI c E u l s'.mem O L hm' vm' part' ∧ Kept (sys c E u) O L s.mem s'.mem) (fun s' => Gone c E u O L s.mem s'.mem) := by
  obtain ⟨m1, new, part1, hval, hml, -⟩ := mergeInner_ok h hp.fits hp.sub (by rw [rpos_node]; exact hle)
  obtain ⟨r, cs, hn, hne, hl, hw, hels, hcnt, hsh⟩ := hp.fits.inner
  have hsize := SubPos.size hp.fits hp.sub
  rw [rpos_node] at hn
  rw [rpos_node] at hml
  rw [rpos_count] at hcnt
  rw [rpos_size] at hsize
  subst hn
  have hcs1 : 1 ≤ cs.length := List.length_pos_iff.2 hne
  change cs.length ≤ rem at hle
  change MInner c l M m1 _ part1 (rem - cs.length) at hml
  have hsum := h.sum
  obtain ⟨k, ks, hcur⟩ : ∃ k ks, vm.curr = k :: ks := by
    cases hc : vm.curr with
    | nil => rw [hc] at hsum; simp at hsum; omega
    | cons k ks => exact ⟨k, ks, rfl⟩
  have hcurr := hd.curr
  unfold HMerger.mergeInner
  rw [bind_ok (liftO_eq hsize), bind_ok (liftO_eq (b := k) (by rw [hcurr, hcur]; rfl)), hcnt]
  have hval' := hval
  simp only [Merger.mergeInner, rpos_size, rpos_count, hsize, hcnt, hcur, List.head?_cons, Option.bind_eq_bind, Option.bind_some, rpos_node] at hval'
  have hiff : vm.toInner.isNone = true ↔ hm.dst = none := by
    rw [h.inner]
    rcases hd with ⟨rfl, h0, -⟩ | ⟨hne, q, k', h0, -⟩
    · simp [h0]
    · simp [hne, h0]
  by_cases hcase : hm.dst = none ∧ k = cs.length
  · rw [if_pos hcase]
    rw [if_pos ⟨hiff.mpr hcase.1, hcase.2⟩] at hval'
    have hpart : part = [] := by
      rcases hd with ⟨h0, -⟩ | ⟨-, q, k', h0, -⟩
      · exact h0
      · rw [hcase.1] at h0; cases h0
    rcases hd with ⟨-, hdn, hpar⟩ | ⟨hne, -⟩
    · refine out_mono (addShared_out hB hE hpar (PVals.of h.core) hdn hp.at_ hp.sh hval') ?_ (fun _ h => h)
      rintro s' hm' ⟨a1, a2, a3⟩
      have hp1 : part1 = [] := by
        obtain ⟨v1, r1, r2⟩ := addChild_some hval'
        have e1 : m1.toInner = vm.toInner := by
          unfold Merger.put at r2
          split at r2
          · obtain ⟨b, _, hb⟩ := Option.bind_eq_some_iff.mp r2
            cases hb
            unfold Merger.room' at r1
            split at r1
            · split at r1
              · cases r1; rfl
              · cases r1
            · cases r1; rfl
          · cases r2
        have h3 := hml.inner
        rw [e1, h.inner, hpart] at h3
        by_contra hc
        simp [hc] at h3
      rw [hp1] at hml
      exact ⟨m1, _, [], hval, hml, .inl ⟨rfl, a3, a1⟩, a2⟩
    · exact absurd hpart hne
  · rw [if_neg hcase]
    have := innerLoop_out (u := u) (O := O) (L := L) (src := x.1) hB hE hp.fits hp.sub hw (cs.length + 1) hm vm out part rem 0 s h hd hp.at_ (by omega) (by omega) (by omega)
    simp only [Nat.sub_zero] at this
    refine out_mono this ?_ (fun _ h => h)
    rintro s' hm' ⟨vm', out', part', b1, b2, b3, b4⟩
    refine ⟨vm', out', part', ?_, b2, b3, b4⟩
    simp only [Merger.mergeInner, rpos_size, rpos_count, hsize, hcnt, hcur, List.head?_cons, Option.bind_eq_bind, Option.bind_some, rpos_node]
    rw [if_neg (by rw [hiff]; exact hcase)]
    have h4 : slice cs 0 cs.length = some cs := by simp [slice]
    simp only [Node.inner?, Option.bind_some, h4]
    exact b1

end
end FlexHeap
