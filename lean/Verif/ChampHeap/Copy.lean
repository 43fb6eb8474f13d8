import Verif.ChampHeap.Build

/-!
# The helpers that copy inner nodes
-/

namespace ChampHeap
open Mm Champ

variable {w : Nat} {T : Type} {E : Env (Dat w) T} {k : Toks E.gc} {O : List Nat} {L : List (Ref (Val w T))}

/-- A new inner node at `dst`, with its own array of values; both may still be changed.  `cv` and `ct` are the tokens in the
array and in the node; children have no token or `ht`. -/
def BuiltV (E : Env (Dat w) T) (k : Toks E.gc) (m : Mem (Dat w) T) (O : List Nat) (L : List (Ref (Val w T))) (dst : Nat) (nm dm : BitVec w) (xs : List T)
    (Ns : List (Node w T)) (cv ct ht : Nat) : Prop :=
  ∃ (vo : Option Nat) (Lc : List (Ref (Val w T))), m dst = some ⟨1, ct, [], .inner ⟨nm, dm, vo, Lc.map Ref.ptr⟩⟩ ∧ Inv (sys E k) m (vo.toList ++ dst :: O) (Lc ++ L) ∧
    Lc.map Ref.val = Ns.map Val.node ∧ (∀ v ∈ vo, m v = some ⟨1, cv, xs.map .live, .vals⟩) ∧ vo.isSome = !xs.isEmpty ∧
    xs.length = popcount dm ∧ Ns.length = popcount nm ∧ ∀ x ∈ Lc, x.tok = 0 ∨ x.tok = ht

/-- A new inner node at `dst`, which may still be changed. -/
def Built (E : Env (Dat w) T) (k : Toks E.gc) (m : Mem (Dat w) T) (O : List Nat) (L : List (Ref (Val w T))) (dst : Nat) (nm dm : BitVec w) (xs : List T)
    (Ns : List (Node w T)) (ct ht : Nat) : Prop :=
  ∃ (vo : Option Nat) (cs : List Nat) (Lo : List (Ref (Val w T))), m dst = some ⟨1, ct, [], .inner ⟨nm, dm, vo, cs⟩⟩ ∧ Inv (sys E k) m (dst :: O) (Lo ++ L) ∧
    Lo.map Ref.ptr = vo.toList ++ cs ∧ OkInner ⟨nm, dm, vo, cs⟩ (Lo.map Ref.val) xs Ns ∧ ∀ x ∈ Lo, x.tok = 0 ∨ x.tok = ht

theorem Built.close {m : Mem (Dat w) T} {dst : Nat} {nm dm : BitVec w} {xs : List T} {Ns : List (Node w T)} {ct ht : Nat}
    (h : Built E k m O L dst nm dm xs Ns ct ht) {t : Nat} (ht' : k.live ct → ct = t) (hh : k.live ht → ht = ct) :
    Inv (sys E k) m O (⟨dst, .node (.inner nm dm xs Ns), t, true⟩ :: L) := by
  obtain ⟨vo, cs, Lo, hc, hi, hp, hok, htk⟩ := h
  refine hi.close hc (fun _ => rfl) hp.symm ⟨rfl, xs, Ns, rfl, hok⟩ ht' ?_
  intro r hr c' hc' hl
  obtain ⟨c'', _, hc'', _, _, h3, _⟩ := hi.look (List.mem_append_left _ hr)
  rw [hc'] at hc''
  cases hc''
  have h3 := h3 hl
  rcases htk r hr with h0 | h0
  · rw [h3, h0] at hl; exact absurd hl k.live0
  · rw [h0]; exact hh (by rw [← h0, ← h3]; exact hl)

theorem BuiltV.built {m : Mem (Dat w) T} {dst : Nat} {nm dm : BitVec w} {xs : List T} {Ns : List (Node w T)} {cv ct ht : Nat}
    (h : BuiltV E k m O L dst nm dm xs Ns cv ct ht) (hh : cv = 0 ∨ cv = ht) : Built E k m O L dst nm dm xs Ns ct ht := by
  obtain ⟨vo, Lc, hc, hi, hv, hvc, hvs, h1, h2, htk⟩ := h
  have hcl : (Lc.map Ref.ptr).length = popcount nm := by
    have := congrArg List.length hv
    simp only [List.length_map] at this ⊢
    omega
  cases vo with
  | none =>
    refine ⟨none, _, Lc, hc, hi, rfl, ⟨h1, h2, hcl, hvs, ?_⟩, htk⟩
    simpa using hv
  | some v =>
    refine ⟨some v, _, ⟨v, .vals xs, cv, true⟩ :: Lc, hc, ?_, rfl, ⟨h1, h2, hcl, hvs, ?_⟩, ?_⟩
    · refine Inv.close (Lo := []) (L := Lc ++ L) hi (hvc v rfl) (fun _ => rfl) rfl ⟨rfl, xs, rfl, rfl⟩ (fun _ => rfl) ?_
      intro r hr; cases hr
    · simpa using hv
    · intro x hx
      rcases List.mem_cons.mp hx with rfl | hx
      · exact hh
      · exact htk x hx

theorem BuiltV.close {m : Mem (Dat w) T} {dst : Nat} {nm dm : BitVec w} {xs : List T} {Ns : List (Node w T)} {cv ct ht : Nat}
    (h : BuiltV E k m O L dst nm dm xs Ns cv ct ht) (hh : cv = 0 ∨ cv = ht) {t : Nat} (ht' : k.live ct → ct = t) (hht : k.live ht → ht = ct) :
    Inv (sys E k) m O (⟨dst, .node (.inner nm dm xs Ns), t, true⟩ :: L) := (h.built hh).close ht' hht

theorem Fresh.kept {m m' : Mem (Dat w) T} {p : Nat} {vo : Option Nat} {nm dm : BitVec w} {n : Nat} {xs : List T} (h : Inv (sys E k) m O L)
    (hf : Fresh E k m m m' O L p vo nm dm n xs) : Kept (sys E k) O L m m' := by
  refine Kept.of h (p :: vo.toList) ?_ ?_ ?_
  · intro q hq
    rcases List.mem_cons.mp hq with rfl | hq
    · exact .inr hf.new.1
    · exact .inr (hf.new.2 q (Option.mem_toList.mp hq)).1
  · intro q hq c hc
    rw [List.mem_cons, not_or, Option.mem_toList] at hq
    exact ⟨c, (hf.frame q hq.1 hq.2).trans hc, .rfl'⟩
  · intro a ha
    refine hf.frame a ?_ ?_
    · rintro rfl; exact h.fresh_notin hf.new.1 ha
    · intro hv; exact h.fresh_notin (hf.new.2 a hv).1 ha

/-- filling in the children -/
theorem Fresh.finish {m m0 m1 : Mem (Dat w) T} {dst : Nat} {vo : Option Nat} {nm dm : BitVec w} {n : Nat} {xs : List T} {X : List (Ref (Val w T))}
    (hf : Fresh E k m m0 m1 O (X ++ L) dst vo nm dm n xs) {Li Lc : List (Ref (Val w T))} {ht : Nat}
    (hi : ∀ x ∈ Li, x.tok = 0 ∧ x.uniq = false ∧ At (sys E k) m1 (X ++ L) x.ptr x.val ∧ Held (sys E k) m1 (X ++ L) x.ptr)
    (hp : Lc.Perm (Li ++ X)) (hX : ∀ x ∈ X, x.tok = 0 ∨ x.tok = ht) {Ns : List (Node w T)} (hN : Lc.map Ref.val = Ns.map Val.node)
    (h1 : xs.length = popcount dm) (h2 : Ns.length = popcount nm) :
    BuiltV E k (upd (incs E.gc m1 (Li.map Ref.ptr)) dst (some ⟨1, 0, [], .inner ⟨nm, dm, vo, Lc.map Ref.ptr⟩⟩)) O L dst nm dm xs Ns 0 0 ht ∧
      Kept (sys E k) O (X ++ L) m1 (upd (incs E.gc m1 (Li.map Ref.ptr)) dst (some ⟨1, 0, [], .inner ⟨nm, dm, vo, Lc.map Ref.ptr⟩⟩)) := by
  have hd := hf.inv.dups (ranked E k) (Li := Li) (fun x hx => (hi x hx).2)
  have hno : ∀ a ∈ vo.toList ++ dst :: O, a ∉ Li.map Ref.ptr := by
    intro a ha hm
    obtain ⟨x, hx, rfl⟩ := List.mem_map.mp hm
    exact hd.ref_ne_open (List.mem_append_left _ hx) ha rfl
  have hk : Kept (sys E k) (vo.toList ++ dst :: O) (X ++ L) m1 (incs E.gc m1 (Li.map Ref.ptr)) := Kept.incs hf.inv _ fun a ha ho => hno a ho ha
  have hw := (hd.permL (L' := Lc ++ L) (by rw [← List.append_assoc]; exact hp.symm.append_right L)).write (a := dst)
    (List.mem_append_right _ List.mem_cons_self) ⟨1, 0, [], .inner ⟨nm, dm, vo, Lc.map Ref.ptr⟩⟩
  have hdO : dst ∉ O := by
    have := hf.inv.open_nodup
    rw [List.nodup_append] at this
    exact (List.nodup_cons.mp this.2.1).1
  refine ⟨⟨vo, Lc, upd_self, hw, hN, ?_, hf.vsome, h1, h2, ?_⟩, ?_⟩
  · intro v hv
    rw [upd_ne (hf.new.2 v hv).2]
    exact (hk.2 v (List.mem_append_left _ (Option.mem_toList.mpr hv))).trans (hf.vcell v hv)
  · intro x hx
    rcases List.mem_append.mp (hp.mem_iff.mp hx) with hx | hx
    · exact .inl (hi x hx).1
    · exact hX x hx
  · refine (hk.mono (fun _ h => h) (fun a ha => List.mem_append_right _ (List.mem_cons_of_mem _ ha))).trans ?_
    exact Kept.upd (hd.permL (L' := Li ++ (X ++ L)) (List.Perm.refl _)) (.inl (List.mem_append_right _ List.mem_cons_self)) hdO _ |>.mono
      (fun r hr => List.mem_append_right _ hr) (fun _ h => h)

section
variable {s s1 : St (Dat w) T} {p dst : Nat} {nm dm nm' dm' : BitVec w} {xs xs' : List T} {Ns : List (Node w T)} {vo : Option Nat} {off i : Nat}

/-- an inner node that may be read, spelled out -/
structure Read (E : Env (Dat w) T) (k : Toks E.gc) (m : Mem (Dat w) T) (O : List Nat) (L : List (Ref (Val w T))) (p : Nat) (nm dm : BitVec w) (xs : List T) (Ns : List (Node w T))
    (c : Cell (Dat w) T) (vo : Option Nat) (cs : List Nat) (Lc : List (Ref (Val w T))) : Prop where
  cell : m p = some c
  data : c.data = .inner ⟨nm, dm, vo, cs⟩
  els : c.els = []
  out : p ∉ O
  xlen : xs.length = popcount dm
  nlen : Ns.length = popcount nm
  clen : cs.length = popcount nm
  vsome : vo.isSome = !xs.isEmpty
  ptr : Lc.map Ref.ptr = cs
  val : Lc.map Ref.val = Ns.map Val.node
  kids : ∀ x ∈ Lc, x.tok = 0 ∧ x.uniq = false ∧ At (sys E k) m L x.ptr x.val ∧ Held (sys E k) m L x.ptr
  vat : ∀ v ∈ vo, At (sys E k) m L v (.vals xs) ∧ Held (sys E k) m L v
  vcell : ∀ v ∈ vo, ∃ cv, m v = some cv ∧ cv.data = .vals ∧ cv.els = xs.map .live ∧ v ∉ O

theorem read {m : Mem (Dat w) T} (h : Inv (sys E k) m O L) (ha : At (sys E k) m L p (.node (.inner nm dm xs Ns))) :
    ∃ c vo cs Lc, Read E k m O L p nm dm xs Ns c vo cs Lc := by
  obtain ⟨c, vo, cs, Lv, Lc, h1, h2, h3, h4, h5, h6, h7, h8, h9, h10, h11⟩ := at_inner h ha
  refine ⟨c, vo, cs, Lc, h1, h2, h3, h4, h5, h6, h7, h8, h9.cptr, h9.cval, fun x hx => h10 x (List.mem_append_right _ hx), fun v hv => ⟨h11 v hv, ?_⟩, fun v hv => at_vals h (h11 v hv)⟩
  have hv' : v ∈ Lv.map Ref.ptr := by rw [h9.vptr]; exact Option.mem_toList.mpr hv
  obtain ⟨x, hx, rfl⟩ := List.mem_map.mp hv'
  exact (h10 x (List.mem_append_left _ hx)).2.2.2

theorem Read.llen {m : Mem (Dat w) T} {c : Cell (Dat w) T} {cs : List Nat} {Lc : List (Ref (Val w T))} (h : Read E k m O L p nm dm xs Ns c vo cs Lc) : Lc.length = popcount nm := by
  have := congrArg List.length h.ptr
  rw [List.length_map] at this
  rw [this]; exact h.clen

/-- the values of a node with some -/
theorem Read.values {m : Mem (Dat w) T} {c : Cell (Dat w) T} {cs : List Nat} {Lc : List (Ref (Val w T))} (h : Read E k m O L p nm dm xs Ns c vo cs Lc)
    (hn : popcount dm ≠ 0) : ∃ sv cv, vo = some sv ∧ m sv = some cv ∧ cv.data = .vals ∧ cv.els = xs.map .live := by
  cases xs with
  | nil => exact absurd h.xlen.symm hn
  | cons x xs =>
    obtain ⟨sv, rfl⟩ := Option.isSome_iff_exists.mp h.vsome
    obtain ⟨cv, h1, h2, h3, _⟩ := h.vcell sv rfl
    exact ⟨sv, cv, rfl, h1, h2, h3⟩

theorem Read.allocated {m : Mem (Dat w) T} {c : Cell (Dat w) T} {cs : List Nat} {Lc : List (Ref (Val w T))} (h : Read E k m O L p nm dm xs Ns c vo cs Lc)
    {x : Ref (Val w T)} (hx : x ∈ Lc) : ∃ c, m x.ptr = some c := by
  obtain ⟨c, _, hc, _⟩ := (h.kids x hx).2.2.1.den.cell
  exact ⟨c, hc⟩

/-- the source is not affected -/
theorem Fresh.same (hf : Fresh E k s.mem s.mem s1.mem O L dst vo nm' dm' n xs') {q : Nat} {c : Cell (Dat w) T} (hq : s.mem q = some c) : s1.mem q = some c := by
  rw [hf.frame q]
  · exact hq
  · rintro rfl; rw [hf.new.1] at hq; cases hq
  · intro hv; rw [(hf.new.2 q hv).1] at hq; cases hq

/-- all children copied -/
theorem tail_all (h : Inv (sys E k) s.mem O L) {c : Cell (Dat w) T} {vo' : Option Nat} {cs : List Nat} {Lc : List (Ref (Val w T))}
    (hr : Read E k s.mem O L p nm dm xs Ns c vo cs Lc) (hf : Fresh E k s.mem s.mem s1.mem O L dst vo' nm dm' (popcount nm) xs') (hx : xs'.length = popcount dm') :
    Out (((liftO (slice cs 0 (popcount nm))).bind fun ys => (incNodes E ys).bind fun _ => (writeKids dst 0 ys).bind fun _ => (M.ret dst : HM w T Nat)) s1)
      (fun s' r => r = dst ∧ BuiltV E k s'.mem O L dst nm dm' xs' Ns 0 0 0 ∧ Kept (sys E k) O L s.mem s'.mem) (fun s' => s'.mem = s.mem) := by
  have hk := hf.kept h
  rw [bind_ok (liftO_eq (slice_all hr.clen))]
  rw [bind_ok (incNodes_eq (s := s1) (by
    intro y hy
    rw [← hr.ptr] at hy
    obtain ⟨x, hx, rfl⟩ := List.mem_map.mp hy
    obtain ⟨c, hc⟩ := hr.allocated hx
    rw [hf.same hc]; simp))]
  have hfin := Fresh.finish (X := []) (ht := 0) hf (Li := Lc) (Lc := Lc) (fun x hx => ⟨(hr.kids x hx).1, (hr.kids x hx).2.1, (hr.kids x hx).2.2.1.kept hk, (hr.kids x hx).2.2.2.kept hk⟩)
    (by simp) (by intro x hx; cases hx) (Ns := Ns) hr.val hx hr.nlen
  rw [hr.ptr] at hfin
  have hdst : dst ∉ cs := by
    rw [← hr.ptr]
    intro hm
    obtain ⟨x, hx, he⟩ := List.mem_map.mp hm
    obtain ⟨c, hc⟩ := hr.allocated hx
    rw [he, hf.new.1] at hc; cases hc
  rw [bind_ok (writeKids_eq (s := { s1 with mem := incs E.gc s1.mem cs }) (by
    show incs E.gc s1.mem cs dst = _
    rw [incs_notin hdst]; exact hf.cell) rfl (by simp [hr.clen]))]
  refine ⟨rfl, ?_⟩
  simp only [List.take_zero, List.nil_append, Nat.zero_add, hr.clen, List.drop_replicate, Nat.sub_self, List.replicate_zero, List.append_nil]
  exact ⟨hfin.1, hk.trans hfin.2⟩

/-- an element assigned after copying -/
theorem copyInnerReplaceValue_out (hE : E.Fresh) (h : Inv (sys E k) s.mem O L) (ha : At (sys E k) s.mem L p (.node (.inner nm dm xs Ns)))
    (ho : off < popcount dm) (v : T) :
    Out (copyInnerReplaceValue E p off v s) (fun s' r => BuiltV E k s'.mem O L r nm dm (xs.set off v) Ns 0 0 0 ∧ Kept (sys E k) O L s.mem s'.mem)
      (fun s' => s'.mem = s.mem) := by
  obtain ⟨c, vo, cs, Lc, hr⟩ := read h ha
  unfold copyInnerReplaceValue
  rw [bind_ok (getI_eq hr.cell hr.data)]
  simp only
  refine out_bind (buildInner_out hE h (xs := xs.set off v) (Y := none) (by rw [List.length_set]; exact hr.xlen) (by intro y hy; cases hy) ?_) ?_
  · intro hn q dv s1 hq hdv hi hc hfr
    obtain ⟨sv, cv, rfl, hcv, _, hels⟩ := hr.values hn
    have hne : sv ≠ dv := by rintro rfl; rw [hdv] at hcv; cases hcv
    have hne' : sv ≠ q := by rintro rfl; rw [hq] at hcv; cases hcv
    have hpc : s1.mem p = some c := by
      rw [hfr p]
      · exact hr.cell
      · rintro rfl; have := hr.cell; rw [hdv] at this; cases this
      · rintro rfl; have := hr.cell; rw [hq] at this; cases this
    rw [bind_ok (valuesPtr_eq hpc hr.data rfl)]
    refine out_bind (out_mono (uninitCopy_out hne hc (pre := []) (post := []) rfl (cs := cv) (by rw [hfr sv hne hne']; exact hcv) (ys := xs) hr.xlen.symm ?_ (by simp))
      (fun _ _ h => h.1) (fun _ h => h.1)) ?_
    · intro j hj
      rw [hels, Nat.zero_add, List.getElem?_map]
    · intro s2 _ h2
      rw [guard_ok (assignEl_eq (w := xs[off]'(by rw [hr.xlen]; exact ho)) (v := v) (by rw [h2]; exact upd_self) (.inl (by
        simp only [List.nil_append, List.append_nil]
        rw [List.getElem?_map, List.getElem?_eq_getElem (by rw [hr.xlen]; exact ho)]; rfl)))]
      show upd s2.mem dv _ = upd s1.mem dv _
      rw [h2, upd_upd]
      simp only [List.nil_append, List.append_nil]
      rw [List.map_set]
  · rintro s1 dst ⟨vo', hf⟩
    exact out_mono (tail_all h hr hf (by rw [List.length_set]; exact hr.xlen)) (fun s' r hq => hq.1 ▸ hq.2) (fun _ h => h)

theorem not_eq_of_alloc {m : Mem (Dat w) T} {a b : Nat} {c : Cell (Dat w) T} (ha : m a = some c) (hb : m b = none) : a ≠ b := by
  rintro rfl; rw [hb] at ha; cases ha

theorem fillRemove_fill (hr : Read E k s.mem O L p nm dm xs Ns c vo cs Lc) (ho : off < popcount dm) :
    popcount dm - 1 ≠ 0 → ∀ q dv s1, s.mem q = none → s.mem dv = none → Inv (sys E k) s1.mem (dv :: q :: O) L' →
      s1.mem dv = some ⟨1, 0, List.replicate (popcount dm - 1) .raw, .vals⟩ → (∀ r, r ≠ dv → r ≠ q → s1.mem r = s.mem r) →
      Out (fillRemove false p off (popcount dm) dv s1) (fun s2 _ => s2.mem = upd (poke none s1.mem) dv (some ⟨1, 0, (xs.take off ++ xs.drop (off + 1)).map .live, .vals⟩))
        (fun s2 => s2.mem = s1.mem) := by
  intro hn q dv s1 hq hdv hi hc hfr
  obtain ⟨sv, cv, rfl, hcv, _, hels⟩ := hr.values (by omega)
  exact fillRemove_out (by rw [hfr p (not_eq_of_alloc hr.cell hdv) (not_eq_of_alloc hr.cell hq)]; exact hr.cell) hr.data rfl
    (by rw [hfr sv (not_eq_of_alloc hcv hdv) (not_eq_of_alloc hcv hq)]; exact hcv) hels hr.xlen ho (not_eq_of_alloc hcv hdv) hc

theorem fillInsert_fill {v : T} (hr : Read E k s.mem O L p nm dm xs Ns c vo cs Lc) (ho : off ≤ popcount dm) :
    popcount dm + 1 ≠ 0 → ∀ q dv s1, s.mem q = none → s.mem dv = none → Inv (sys E k) s1.mem (dv :: q :: O) L' →
      s1.mem dv = some ⟨1, 0, List.replicate (popcount dm + 1) .raw, .vals⟩ → (∀ r, r ≠ dv → r ≠ q → s1.mem r = s.mem r) →
      Out (fillInsert false p off (popcount dm) v dv s1) (fun s2 _ => s2.mem = upd (poke none s1.mem) dv (some ⟨1, 0, (xs.take off ++ v :: xs.drop off).map .live, .vals⟩))
        (fun s2 => s2.mem = s1.mem) := by
  intro hn q dv s1 hq hdv hi hc hfr
  refine fillInsert_out (by rw [hfr p (not_eq_of_alloc hr.cell hdv) (not_eq_of_alloc hr.cell hq)]; exact hr.cell) hr.data hr.vsome ?_ hr.xlen ho hc
  intro sv hsv
  obtain ⟨cv, h1, _, h3, _⟩ := hr.vcell sv hsv
  exact ⟨cv, by rw [hfr sv (not_eq_of_alloc h1 hdv) (not_eq_of_alloc h1 hq)]; exact h1, h3, not_eq_of_alloc h1 hdv⟩

theorem copyInnerRemoveValue_out (hE : E.Fresh) (h : Inv (sys E k) s.mem O L) (ha : At (sys E k) s.mem L p (.node (.inner nm dm xs Ns)))
    (hi : i < w) (hd : dm.getLsbD i = true) :
    Out (copyInnerRemoveValue E p (bitOf w i) (cnt dm i) s)
      (fun s' r => BuiltV E k s'.mem O L r nm (dm &&& ~~~ bitOf w i) (xs.take (cnt dm i) ++ xs.drop (cnt dm i + 1)) Ns 0 0 0 ∧ Kept (sys E k) O L s.mem s'.mem)
      (fun s' => s'.mem = s.mem) := by
  obtain ⟨c, vo, cs, Lc, hr⟩ := read h ha
  have ho := cnt_lt_popcount hd
  have hlen : (xs.take (cnt dm i) ++ xs.drop (cnt dm i + 1)).length = popcount dm - 1 := by
    have := length_erase (xs := xs) (n := cnt dm i) (by rw [hr.xlen]; exact ho)
    rw [hr.xlen] at this; omega
  unfold copyInnerRemoveValue
  rw [bind_ok (getI_eq hr.cell hr.data)]
  simp only
  refine out_bind (buildInner_out hE h (xs := xs.take (cnt dm i) ++ xs.drop (cnt dm i + 1)) (Y := none) hlen (by intro y hy; cases hy) (fillRemove_fill hr ho)) ?_
  rintro s1 dst ⟨vo', hf⟩
  have hpc := popcount_andNot hi hd
  exact out_mono (tail_all h hr hf (by rw [hlen]; omega)) (fun s' r hq => hq.1 ▸ hq.2) (fun _ h => h)

theorem copyInnerInsertValue_out (hE : E.Fresh) (h : Inv (sys E k) s.mem O L) (ha : At (sys E k) s.mem L p (.node (.inner nm dm xs Ns)))
    (hi : i < w) (hd : dm.getLsbD i = false) (v : T) :
    Out (copyInnerInsertValue E p (bitOf w i) v s)
      (fun s' r => BuiltV E k s'.mem O L r nm (dm ||| bitOf w i) (xs.take (cnt dm i) ++ v :: xs.drop (cnt dm i)) Ns 0 0 0 ∧ Kept (sys E k) O L s.mem s'.mem)
      (fun s' => s'.mem = s.mem) := by
  obtain ⟨c, vo, cs, Lc, hr⟩ := read h ha
  have ho := cnt_le_popcount (bm := dm) (Nat.le_of_lt hi)
  have hlen : (xs.take (cnt dm i) ++ v :: xs.drop (cnt dm i)).length = popcount dm + 1 := by rw [length_insert (by rw [hr.xlen]; exact ho), hr.xlen]
  unfold copyInnerInsertValue
  rw [bind_ok (getI_eq hr.cell hr.data)]
  simp only
  rw [rank_eq_cnt dm hi]
  refine out_bind (buildInner_out hE h (xs := xs.take (cnt dm i) ++ v :: xs.drop (cnt dm i)) (Y := none) hlen (by intro y hy; cases hy) (fillInsert_fill hr ho)) ?_
  rintro s1 dst ⟨vo', hf⟩
  have hpc := popcount_or hi hd
  exact out_mono (tail_all h hr hf (by rw [hlen]; omega)) (fun s' r hq => hq.1 ▸ hq.2) (fun _ h => h)

theorem merged_list (A B J : List Nat) (n : Nat) (hJ : J.length = A.length + 1 + B.length) :
    let J1 := J.take 0 ++ A ++ J.drop (0 + A.length)
    let J2 := J1.take (A.length + 1) ++ B ++ J1.drop (A.length + 1 + B.length)
    J2.take A.length ++ [n] ++ J2.drop (A.length + [n].length) = A ++ n :: B := by
  have h1 : (J.take A.length).length = A.length := by rw [List.length_take]; omega
  obtain ⟨x, JB, hx⟩ : ∃ x JB, J.drop A.length = x :: JB := List.exists_cons_of_length_pos (by rw [List.length_drop]; omega)
  have hl : JB.length = B.length := by
    have := congrArg List.length hx
    rw [List.length_drop, List.length_cons] at this
    omega
  intro J1 J2
  have e1 : J1 = A ++ x :: JB := by simp [J1, hx]
  have e2 : J2 = A ++ x :: B := by
    simp only [J2, e1]
    have h3 : (A ++ x :: JB).take (A.length + 1) = A ++ [x] := by simp [List.take_append]
    have h4 : (A ++ x :: JB).drop (A.length + 1 + B.length) = [] := List.drop_eq_nil_of_le (by
      rw [List.length_append, List.length_cons]; omega)
    rw [h3, h4]; simp
  rw [e2]
  simp
theorem inline_list (A B J : List Nat) (hJ : J.length = A.length + B.length) :
    let J1 := J.take 0 ++ A ++ J.drop (0 + A.length)
    J1.take A.length ++ B ++ J1.drop (A.length + B.length) = A ++ B := by
  simp [hJ]

theorem kidsMerged_eq {j : Inner w} {ii : Inner w} {c : Cell (Dat w) T} {node no : Nat} (hc : s.mem dst = some c) (hd : c.data = .inner j)
    (hl : ii.cs.length = popcount ii.nm) (hj : j.cs.length = popcount ii.nm + 1) (hno : no ≤ popcount ii.nm) :
    kidsMerged ii no dst node s = .ok { s with mem := upd s.mem dst (some { c with data := .inner { j with cs := ii.cs.take no ++ node :: ii.cs.drop no } }) } () := by
  unfold kidsMerged
  rw [bind_ok (liftO_eq (slice_pre (by omega)))]
  rw [bind_ok (writeKids_eq hc hd (by rw [List.length_take]; omega))]
  rw [bind_ok (liftO_eq (slice_post (by omega)))]
  rw [bind_ok (writeKids_eq (s := { s with mem := _ }) upd_self rfl (by simp only [List.length_append, List.length_take, List.length_drop]; omega))]
  rw [writeKids_eq (s := { s with mem := _ }) upd_self rfl (by simp only [List.length_append, List.length_take, List.length_drop, List.length_singleton]; omega)]
  simp only [upd_upd]
  congr 7
  have h1 : (ii.cs.take no).length = no := by rw [List.length_take]; omega
  have h2 : (ii.cs.drop no).length = popcount ii.nm - no := by rw [List.length_drop]; omega
  have := merged_list (ii.cs.take no) (ii.cs.drop no) j.cs node (by omega)
  rw [h1] at this
  rw [h1]
  exact this

theorem kidsInline_eq {j : Inner w} {ii : Inner w} {c : Cell (Dat w) T} {no : Nat} (hc : s.mem dst = some c) (hd : c.data = .inner j)
    (hl : ii.cs.length = popcount ii.nm) (hj : j.cs.length = popcount ii.nm - 1) (hno : no < popcount ii.nm) :
    kidsInline ii no dst s = .ok { s with mem := upd s.mem dst (some { c with data := .inner { j with cs := ii.cs.take no ++ ii.cs.drop (no + 1) } }) } () := by
  unfold kidsInline
  rw [bind_ok (liftO_eq (slice_pre (by omega)))]
  rw [bind_ok (writeKids_eq hc hd (by rw [List.length_take]; omega))]
  rw [bind_ok (liftO_eq (slice_post (by omega)))]
  rw [writeKids_eq (s := { s with mem := _ }) upd_self rfl (by simp only [List.length_append, List.length_take, List.length_drop]; omega)]
  simp only [upd_upd]
  congr 7
  have h1 : (ii.cs.take no).length = no := by rw [List.length_take]; omega
  have h2 : (ii.cs.drop (no + 1)).length = popcount ii.nm - (no + 1) := by rw [List.length_drop]; omega
  have := inline_list (ii.cs.take no) (ii.cs.drop (no + 1)) j.cs (by omega)
  rw [h1] at this
  rw [h1]
  exact this

theorem take_drop_perm {α : Type} (l : List α) (n : Nat) (X : List α) : (l.take n ++ (X ++ l.drop n)).Perm (l ++ X) := by
  conv => rhs; rw [← List.take_append_drop n l]
  rw [List.append_assoc]
  exact List.Perm.append_left _ List.perm_append_comm

theorem copyInnerReplaceMerged_out (hE : E.Fresh) {r : Ref (Val w T)} {N : Node w T} (hrv : r.val = .node N) (h : Inv (sys E k) s.mem O (r :: L))
    (ha : At (sys E k) s.mem (r :: L) p (.node (.inner nm dm xs Ns))) (hi : i < w) (hd : dm.getLsbD i = true) (hn : nm.getLsbD i = false) :
    Out (copyInnerReplaceMerged E p (bitOf w i) (cnt dm i) r.ptr s)
      (fun s' dst => BuiltV E k s'.mem O L dst (nm ||| bitOf w i) (dm &&& ~~~ bitOf w i) (xs.take (cnt dm i) ++ xs.drop (cnt dm i + 1))
        (Ns.take (cnt nm i) ++ N :: Ns.drop (cnt nm i)) 0 0 r.tok ∧ Kept (sys E k) O (r :: L) s.mem s'.mem)
      (fun s' => s'.mem = s.mem) := by
  obtain ⟨c, vo, cs, Lc, hr⟩ := read h ha
  have ho := cnt_lt_popcount hd
  have hno := cnt_le_popcount (bm := nm) (Nat.le_of_lt hi)
  have hlen : (xs.take (cnt dm i) ++ xs.drop (cnt dm i + 1)).length = popcount dm - 1 := by
    have := length_erase (xs := xs) (n := cnt dm i) (by rw [hr.xlen]; exact ho)
    rw [hr.xlen] at this; omega
  unfold copyInnerReplaceMerged
  rw [bind_ok (getI_eq hr.cell hr.data)]
  simp only
  rw [rank_eq_cnt nm hi]
  refine out_bind (buildInner_out hE h (xs := xs.take (cnt dm i) ++ xs.drop (cnt dm i + 1)) (Y := none) hlen (by intro y hy; cases hy) (fillRemove_fill hr ho)) ?_
  rintro s1 dst ⟨vo', hf⟩
  have hk := hf.kept h
  rw [bind_ok (liftO_eq (slice_all hr.clen))]
  rw [bind_ok (incNodes_eq (s := s1) (by
    intro y hy
    rw [← hr.ptr] at hy
    obtain ⟨x, hx, rfl⟩ := List.mem_map.mp hy
    obtain ⟨c, hc⟩ := hr.allocated hx
    rw [hf.same hc]; simp))]
  have hfin := Fresh.finish (X := [r]) (ht := r.tok) hf (Li := Lc) (Lc := Lc.take (cnt nm i) ++ ([r] ++ Lc.drop (cnt nm i)))
    (fun x hx => ⟨(hr.kids x hx).1, (hr.kids x hx).2.1, (hr.kids x hx).2.2.1.kept hk, (hr.kids x hx).2.2.2.kept hk⟩)
    (take_drop_perm _ _ _) (by intro x hx; rw [List.mem_singleton] at hx; exact .inr (by rw [hx])) (Ns := Ns.take (cnt nm i) ++ N :: Ns.drop (cnt nm i))
    (by simp only [List.map_append, List.map_take, List.map_drop, List.map_cons, List.map_nil, hr.val, hrv]; simp) (by have := popcount_andNot hi hd; rw [hlen]; omega)
    (by have := popcount_or hi hn; rw [length_insert (by rw [hr.nlen]; exact hno), hr.nlen]; omega)
  rw [hr.ptr] at hfin
  have hdst : dst ∉ cs := by
    rw [← hr.ptr]
    intro hm
    obtain ⟨x, hx, he⟩ := List.mem_map.mp hm
    obtain ⟨c, hc⟩ := hr.allocated hx
    rw [he, hf.new.1] at hc; cases hc
  rw [bind_ok (kidsMerged_eq (s := { s1 with mem := incs E.gc s1.mem cs }) (ii := ⟨nm, dm, vo, cs⟩) (by
    show incs E.gc s1.mem cs dst = _
    rw [incs_notin hdst]; exact hf.cell) rfl hr.clen (by simp) hno)]
  have he : (Lc.take (cnt nm i) ++ ([r] ++ Lc.drop (cnt nm i))).map Ref.ptr = cs.take (cnt nm i) ++ r.ptr :: cs.drop (cnt nm i) := by
    simp only [List.map_append, List.map_take, List.map_drop, List.map_cons, List.map_nil, hr.ptr]; simp
  rw [he] at hfin
  exact ⟨hfin.1, hk.trans hfin.2⟩

theorem copyInnerReplaceInline_out (hE : E.Fresh) (h : Inv (sys E k) s.mem O L)
    (ha : At (sys E k) s.mem L p (.node (.inner nm dm xs Ns))) (hi : i < w) (hd : dm.getLsbD i = false) (hn : nm.getLsbD i = true) (v : T) :
    Out (copyInnerReplaceInline E p (bitOf w i) (cnt nm i) v s)
      (fun s' dst => BuiltV E k s'.mem O L dst (nm &&& ~~~ bitOf w i) (dm ||| bitOf w i) (xs.take (cnt dm i) ++ v :: xs.drop (cnt dm i))
        (Ns.take (cnt nm i) ++ Ns.drop (cnt nm i + 1)) 0 0 0 ∧ Kept (sys E k) O L s.mem s'.mem)
      (fun s' => s'.mem = s.mem) := by
  obtain ⟨c, vo, cs, Lc, hr⟩ := read h ha
  have ho := cnt_le_popcount (bm := dm) (Nat.le_of_lt hi)
  have hno := cnt_lt_popcount hn
  have hlen : (xs.take (cnt dm i) ++ v :: xs.drop (cnt dm i)).length = popcount dm + 1 := by rw [length_insert (by rw [hr.xlen]; exact ho), hr.xlen]
  unfold copyInnerReplaceInline
  rw [bind_ok (getI_eq hr.cell hr.data)]
  simp only
  rw [rank_eq_cnt dm hi]
  refine out_bind (buildInner_out hE h (xs := xs.take (cnt dm i) ++ v :: xs.drop (cnt dm i)) (Y := none) hlen (by intro y hy; cases hy) (fillInsert_fill hr ho)) ?_
  rintro s1 dst ⟨vo', hf⟩
  have hk := hf.kept h
  have hsub : ∀ x ∈ Lc.take (cnt nm i) ++ Lc.drop (cnt nm i + 1), x ∈ Lc := by
    intro x hx
    rcases List.mem_append.mp hx with hx | hx
    · exact List.mem_of_mem_take hx
    · exact List.mem_of_mem_drop hx
  have hal : ∀ y ∈ cs, ∃ c, s.mem y = some c := by
    intro y hy
    rw [← hr.ptr] at hy
    obtain ⟨x, hx, rfl⟩ := List.mem_map.mp hy
    exact hr.allocated hx
  have hcl := hr.clen
  rw [bind_ok (liftO_eq (slice_pre (by omega)))]
  rw [bind_ok (incNodes_eq (s := s1) (by
    intro y hy
    obtain ⟨c, hc⟩ := hal y (List.mem_of_mem_take hy)
    rw [hf.same hc]; simp))]
  rw [bind_ok (liftO_eq (slice_post (by omega)))]
  rw [bind_ok (incNodes_eq (s := { s1 with mem := _ }) (by
    intro y hy
    obtain ⟨c, hc⟩ := hal y (List.mem_of_mem_drop hy)
    show incs E.gc s1.mem _ y ≠ none
    rw [incs_some (hf.same hc)]; simp))]
  simp only [incs_incs]
  have hcl' : ∀ n, List.take n cs = List.map Ref.ptr (Lc.take n) ∧ List.drop n cs = List.map Ref.ptr (Lc.drop n) := by
    intro n; rw [List.map_take, List.map_drop, hr.ptr]; exact ⟨rfl, rfl⟩
  have hfin := Fresh.finish (X := []) (ht := 0) hf (Li := Lc.take (cnt nm i) ++ Lc.drop (cnt nm i + 1)) (Lc := Lc.take (cnt nm i) ++ Lc.drop (cnt nm i + 1))
    (fun x hx => ⟨(hr.kids x (hsub x hx)).1, (hr.kids x (hsub x hx)).2.1, (hr.kids x (hsub x hx)).2.2.1.kept hk, (hr.kids x (hsub x hx)).2.2.2.kept hk⟩)
    (by simp) (by intro x hx; cases hx) (Ns := Ns.take (cnt nm i) ++ Ns.drop (cnt nm i + 1))
    (by simp only [List.map_append, List.map_take, List.map_drop, hr.val]) (by have := popcount_or hi hd; rw [hlen]; omega)
    (by
      have := popcount_andNot hi hn
      have := length_erase (xs := Ns) (n := cnt nm i) (by rw [hr.nlen]; exact hno)
      rw [hr.nlen] at this; omega)
  have he : (Lc.take (cnt nm i) ++ Lc.drop (cnt nm i + 1)).map Ref.ptr = cs.take (cnt nm i) ++ cs.drop (cnt nm i + 1) := by
    rw [List.map_append, List.map_take, List.map_drop, hr.ptr]
  rw [he] at hfin
  have hdst : dst ∉ cs.take (cnt nm i) ++ cs.drop (cnt nm i + 1) := by
    intro hm
    have hm : dst ∈ cs := by
      rcases List.mem_append.mp hm with hm | hm
      · exact List.mem_of_mem_take hm
      · exact List.mem_of_mem_drop hm
    obtain ⟨c, hc⟩ := hal dst hm
    rw [hf.new.1] at hc; cases hc
  rw [bind_ok (kidsInline_eq (s := { s1 with mem := incs E.gc s1.mem (cs.take (cnt nm i) ++ cs.drop (cnt nm i + 1)) }) (ii := ⟨nm, dm, vo, cs⟩) (by
    show incs E.gc s1.mem _ dst = _
    rw [incs_notin hdst]; exact hf.cell) rfl hr.clen (by simp) hno)]
  exact ⟨hfin.1, hk.trans hfin.2⟩

theorem copyInnerReplace_out (hE : E.Fresh) {r : Ref (Val w T)} {N : Node w T} (hrv : r.val = .node N) (h : Inv (sys E k) s.mem O (r :: L))
    (ha : At (sys E k) s.mem (r :: L) p (.node (.inner nm dm xs Ns))) (ho : off < popcount nm) :
    Out (copyInnerReplace E p off r.ptr s)
      (fun s' dst => Built E k s'.mem O L dst nm dm xs (Ns.set off N) 0 r.tok ∧ Kept (sys E k) O (r :: L) s.mem s'.mem)
      (fun s' => s'.mem = s.mem) := by
  obtain ⟨c, vo, cs, Lc, hr⟩ := read h ha
  have hcl := hr.clen
  have hal : ∀ y ∈ vo.toList ++ cs, ∃ c, s.mem y = some c := by
    intro y hy
    rcases List.mem_append.mp hy with hy | hy
    · obtain ⟨cv, h1, _⟩ := hr.vcell y (Option.mem_toList.mp hy)
      exact ⟨cv, h1⟩
    · rw [← hr.ptr] at hy
      obtain ⟨x, hx, rfl⟩ := List.mem_map.mp hy
      exact hr.allocated hx
  unfold copyInnerReplace
  rw [bind_ok (getI_eq hr.cell hr.data)]
  simp only
  -- the new node, sharing the values
  have hmk : Out (makeInnerShared E (popcount nm) vo s) (fun s' dst => s.mem dst = none ∧
      s'.mem = incs E.gc (upd s.mem dst (some ⟨1, 0, [], .inner ⟨0#w, 0#w, vo, List.replicate (popcount nm) 0⟩⟩)) vo.toList) (fun s' => s'.mem = s.mem) := by
    unfold makeInnerShared makeInner
    refine out_bind (alloc_out hE h.finite) ?_
    rintro s1 dst ⟨hd, _, h1, _⟩
    cases vo with
    | none => exact ⟨hd, by rw [h1, Option.toList_none, incs_nil]; rfl⟩
    | some v =>
      simp only
      obtain ⟨cv, hcv⟩ := hal v (by simp)
      have hne : v ≠ dst := not_eq_of_alloc hcv hd
      rw [bind_ok (setI_eq (s := s1) (i := ⟨0#w, 0#w, none, List.replicate (popcount nm) 0⟩) (by rw [h1]; exact upd_self) rfl)]
      rw [bind_ok (inc_eq (s := { s1 with mem := _ }) (c := cv) (by show upd s1.mem dst _ v = _; rw [upd_ne hne, h1, upd_ne hne]; exact hcv))]
      refine ⟨hd, ?_⟩
      show incs E.gc (upd s1.mem dst _) [v] = _
      rw [h1, upd_upd]; rfl
  refine out_bind hmk ?_
  rintro s1 dst ⟨hd, h1⟩
  have hdn : dst ∉ vo.toList ++ cs := fun hm => by
    obtain ⟨c, hc⟩ := hal dst hm
    rw [hd] at hc; cases hc
  have hdv : dst ∉ vo.toList := fun hm => hdn (List.mem_append_left _ hm)
  have hdc : dst ∉ cs := fun hm => hdn (List.mem_append_right _ hm)
  have hcell : s1.mem dst = some ⟨1, 0, [], .inner ⟨0#w, 0#w, vo, List.replicate (popcount nm) 0⟩⟩ := by rw [h1, incs_notin hdv, upd_self]
  rw [bind_ok (setI_eq hcell rfl)]
  rw [bind_ok (liftO_eq (slice_all hr.clen))]
  rw [bind_ok (writeKids_eq (s := { s1 with mem := _ }) upd_self rfl (by simp [hr.clen]))]
  simp only [upd_upd, List.take_zero, List.nil_append, Nat.zero_add, hr.clen, List.drop_replicate, Nat.sub_self, List.replicate_zero, List.append_nil]
  rw [bind_ok (liftO_eq (slice_pre (by omega)))]
  rw [bind_ok (incNodes_eq (s := { s1 with mem := _ }) (by
    intro y hy
    have hy := List.mem_of_mem_take hy
    obtain ⟨c, hc⟩ := hal y (List.mem_append_right _ hy)
    show upd s1.mem dst _ y ≠ none
    have hne := not_eq_of_alloc hc hd
    rw [upd_ne hne, h1, incs_some (c := c) (by rw [upd_ne hne]; exact hc)]; simp))]
  rw [bind_ok (liftO_eq (slice_post (i := off + 1) (by omega)))]
  rw [bind_ok (incNodes_eq (s := { s1 with mem := _ }) (by
    intro y hy
    have hy := List.mem_of_mem_drop hy
    obtain ⟨c, hc⟩ := hal y (List.mem_append_right _ hy)
    have hne := not_eq_of_alloc hc hd
    show incs E.gc (upd s1.mem dst _) _ y ≠ none
    rw [incs_some (c := { c with rc := c.rc + if E.gc then 0 else vo.toList.count y }) (by rw [upd_ne hne, h1]; exact incs_some (by rw [upd_ne hne]; exact hc))]
    simp))]
  simp only [incs_incs]
  have hdt : dst ∉ cs.take off ++ cs.drop (off + 1) := fun hm => by
    rcases List.mem_append.mp hm with hm | hm
    · exact hdc (List.mem_of_mem_take hm)
    · exact hdc (List.mem_of_mem_drop hm)
  rw [incs_upd hdt]
  rw [bind_ok (writeKids_eq (s := { s1 with mem := _ }) upd_self rfl (by simp only [List.length_singleton]; omega))]
  simp only [upd_upd]
  have hm : s1.mem = upd (incs E.gc s.mem vo.toList) dst (some ⟨1, 0, [], .inner ⟨0#w, 0#w, vo, List.replicate (popcount nm) 0⟩⟩) := by rw [h1, incs_upd hdv]
  rw [hm, incs_upd hdt, incs_incs, upd_upd]
  -- the references
  let Lv : List (Ref (Val w T)) := vo.toList.map fun v => ⟨v, .vals xs, 0, false⟩
  let Lt := Lc.take off ++ Lc.drop (off + 1)
  have hLv : ∀ x ∈ Lv ++ Lt, x.tok = 0 ∧ x.uniq = false ∧ At (sys E k) s.mem (r :: L) x.ptr x.val ∧ Held (sys E k) s.mem (r :: L) x.ptr := by
    intro x hx
    rcases List.mem_append.mp hx with hx | hx
    · obtain ⟨v, hv, rfl⟩ := List.mem_map.mp hx
      have := hr.vat v (Option.mem_toList.mp hv)
      exact ⟨rfl, rfl, this.1, this.2⟩
    · refine hr.kids x ?_
      rcases List.mem_append.mp hx with hx | hx
      · exact List.mem_of_mem_take hx
      · exact List.mem_of_mem_drop hx
  have hptr : (Lv ++ Lt).map Ref.ptr = vo.toList ++ (cs.take off ++ cs.drop (off + 1)) := by
    simp only [Lv, Lt, List.map_append, List.map_map, List.map_take, List.map_drop, hr.ptr]
    congr 1
    exact List.map_id _
  have hdups := h.dups (ranked E k) (Li := Lv ++ Lt) (fun x hx => (hLv x hx).2)
  have hnO : ∀ a ∈ (Lv ++ Lt).map Ref.ptr, a ∉ O := by
    intro a ha hO
    obtain ⟨x, hx, rfl⟩ := List.mem_map.mp ha
    exact hdups.ref_ne_open (List.mem_append_left _ hx) hO rfl
  have hk : Kept (sys E k) O (r :: L) s.mem (incs E.gc s.mem ((Lv ++ Lt).map Ref.ptr)) := Kept.incs h _ hnO
  have hd' : incs E.gc s.mem ((Lv ++ Lt).map Ref.ptr) dst = none := incs_none hd
  have hset : cs.set off r.ptr = cs.take off ++ [r.ptr] ++ cs.drop (off + [r.ptr].length) := by
    rw [List.set_eq_take_append_cons_drop, if_pos (by omega)]; simp
  rw [hptr] at hd' hk hdups
  refine ⟨⟨vo, cs.set off r.ptr, Lv ++ (Lc.take off ++ ([r] ++ Lc.drop (off + 1))), ?_, ?_, ?_, ?_, ?_⟩, ?_⟩
  · show upd _ dst _ dst = _
    rw [upd_self, hset]
  · refine (hdups.permL ?_).alloc hd' _
    show (Lv ++ (Lc.take off ++ Lc.drop (off + 1)) ++ (r :: L)).Perm _
    simp only [List.append_assoc, List.cons_append, List.nil_append]
    exact List.Perm.append_left _ (List.Perm.append_left _ List.perm_middle)
  · simp only [Lv, List.map_append, List.map_map, List.map_take, List.map_drop, List.map_cons, List.map_nil, hr.ptr, hset, List.length_singleton]
    rw [List.append_assoc]
    congr 1
    exact List.map_id _
  · refine ⟨hr.xlen, by rw [List.length_set]; exact hr.nlen, by simp only [List.length_set]; exact hr.clen, hr.vsome, ?_⟩
    have hsn : Ns.set off N = Ns.take off ++ N :: Ns.drop (off + 1) := by
      rw [List.set_eq_take_append_cons_drop, if_pos (by rw [hr.nlen]; exact ho)]
    rw [hsn]
    simp only [Lv, List.map_append, List.map_map, List.map_take, List.map_drop, List.map_cons, List.map_nil, hr.val, hrv]
    rfl
  · intro x hx
    rcases List.mem_append.mp hx with hx | hx
    · exact .inl (hLv x (List.mem_append_left _ hx)).1
    · rcases List.mem_append.mp hx with hx | hx
      · exact .inl (hLv x (List.mem_append_right _ (List.mem_append_left _ hx))).1
      · rcases List.mem_cons.mp hx with rfl | hx
        · exact .inr rfl
        · exact .inl (hLv x (List.mem_append_right _ (List.mem_append_right _ hx))).1
  · refine hk.trans ?_
    exact Kept.upd (hdups.permL (List.Perm.refl _)) (.inr hd') (h.fresh_notin hd) _ |>.mono (fun x hx => List.mem_append_right _ hx) (fun _ h => h)

end
end ChampHeap
