import Verif.FlexHeap.Release
import Verif.VecHeap.SliceMut

/-!
# Making relaxed nodes
-/

namespace FlexHeap
open Mm Rrb VecHeap

variable {T : Type} {c : Cfg} {E : Env Dat T} {u : Toks E.gc} {O : List Nat} {L : List (Ref (Val T))}

section
variable {s : St Dat T} {m m' : Mem Dat T} {p q n i t l e : Nat} {N : Node T} {Ns : List (Node T)} {ks sz ss : List Nat} {cl ct : Cell Dat T} {r tr : Ref (Val T)} {own : Option Nat} {cap capT : Nat}
  {rel : Option Nat} {Lo : List (Ref (Val T))} {rs : Option (List Nat)}

/-! ### Nodes that may be read -/

theorem at_innerG (h : Inv (sys c E u) m O L) (ha : At (sys c E u) m L p (.node (.inner rs Ns))) : ∃ (cl : Cell Dat T) (cap : Nat) (rel : Option Nat) (Lc : List (Ref (Val T))), m p = some cl ∧
    cl.data = .inner cap rel (Lc.map Ref.ptr) ∧ Lc.map Ref.val = Ns.map Val.node ∧ p ∉ O ∧ (∀ x ∈ Lc, x.uniq = false ∧ At (sys c E u) m L x.ptr x.val ∧ Held (sys c E u) m L x.ptr) ∧
    rel.isSome = rs.isSome ∧ ∀ t ∈ rel, ∀ sz ∈ rs, At (sys c E u) m L t (.table sz) ∧ Held (sys c E u) m L t := by
  obtain ⟨cl, Lo, hc, ho, hok, hO, hx⟩ := h.kids ha
  cases rs with
  | none =>
    obtain ⟨cap, ks, h1, _, _, _, _, h2⟩ := okD_inner hok
    have ho : outsD cl.data = Lo.map Ref.ptr := ho
    rw [h1] at ho
    have ho : ks = Lo.map Ref.ptr := ho
    rw [ho] at h1
    exact ⟨cl, cap, none, Lo, hc, h1, h2, hO, fun x hm => (hx x hm).2, rfl, fun t ht => by cases ht⟩
  | some sz =>
    obtain ⟨cap, tr, Lc, rfl, h1, _, _, _, htr, h2⟩ := okD_innerR hok ho
    refine ⟨cl, cap, some tr.ptr, Lc, hc, h1, h2, hO, fun x hm => (hx x (List.mem_cons_of_mem _ hm)).2, rfl, ?_⟩
    intro t ht sz' hsz
    cases ht
    cases hsz
    have := (hx tr List.mem_cons_self).2.2
    rw [htr] at this
    exact this

/-- the same for relaxed nodes -/
theorem at_innerR (h : Inv (sys c E u) m O L) (ha : At (sys c E u) m L p (.node (.inner (some sz) Ns))) : ∃ (cl : Cell Dat T) (cap t : Nat) (Lc : List (Ref (Val T))), m p = some cl ∧
    cl.data = .inner cap (some t) (Lc.map Ref.ptr) ∧ Lc.map Ref.val = Ns.map Val.node ∧ p ∉ O ∧ (∀ x ∈ Lc, x.uniq = false ∧ At (sys c E u) m L x.ptr x.val ∧ Held (sys c E u) m L x.ptr) ∧
    At (sys c E u) m L t (.table sz) ∧ Held (sys c E u) m L t := by
  obtain ⟨cl, cap, rel, Lc, h1, h2, h3, h4, h5, h6, h7⟩ := at_innerG h ha
  cases rel with
  | none => cases h6
  | some t => exact ⟨cl, cap, t, Lc, h1, h2, h3, h4, h5, h7 t rfl sz rfl⟩

/-! ### Inner nodes being filled or changed -/

/-- the open node `p` with the children `Ns` and the pointer `rel` -/
structure OpG (c : Cfg) (E : Env Dat T) (u : Toks E.gc) (m : Mem Dat T) (O : List Nat) (L : List (Ref (Val T))) (p : Nat) (cl : Cell Dat T) (cap : Nat) (rel : Option Nat) (Lo : List (Ref (Val T)))
    (Ns : List (Node T)) : Prop where
  cell : m p = some cl
  data : cl.data = .inner cap rel (Lo.map Ref.ptr)
  els : cl.els = []
  rc : E.gc = false → cl.rc = 1
  capRc : E.gc = false → cap = 2 ^ c.B
  tk : cl.tok ≠ 0 → cap = 2 ^ c.B
  len : Lo.length ≤ cap
  val : Lo.map Ref.val = Ns.map Val.node
  tok : E.gc = true → ∀ x ∈ Lo, x.tok = cl.tok
  inv : Inv (sys c E u) m (p :: O) (Lo ++ L)

theorem OpG.of (h : Op c E u m O L p cl cap Lo Ns) : OpG c E u m O L p cl cap none Lo Ns :=
  ⟨h.cell, h.data, h.els, h.rc, h.capRc, h.tk, h.len, h.val, h.tok, h.inv⟩

theorem OpG.op (h : OpG c E u m O L p cl cap none Lo Ns) : Op c E u m O L p cl cap Lo Ns :=
  ⟨h.cell, h.data, h.els, h.rc, h.capRc, h.tk, h.len, h.val, h.tok, h.inv⟩

theorem OpG.length (h : OpG c E u m O L p cl cap rel Lo Ns) : Lo.length = Ns.length := by
  have := congrArg List.length h.val
  simpa using this

theorem OpG.mem (h : OpG c E u m O L p cl cap rel Lo Ns) {O' : List Nat} {L' : List (Ref (Val T))} (hi : Inv (sys c E u) m' (p :: O') (Lo ++ L')) (hc : m' p = m p) : OpG c E u m' O' L' p cl cap rel Lo Ns :=
  { h with inv := hi, cell := hc.trans h.cell }

/-- other children -/
theorem OpG.put (h : OpG c E u m O L p cl cap rel Lo Ns) {O' : List Nat} {L' Lo' : List (Ref (Val T))} {Ns' : List (Node T)} (rel' : Option Nat) (hi : Inv (sys c E u) m' (p :: O') (Lo' ++ L')) (hv : Lo'.map Ref.val = Ns'.map Val.node)
    (ht : E.gc = true → ∀ x ∈ Lo', x.tok = cl.tok) (hl : Lo'.length ≤ cap) :
    OpG c E u (upd m' p (some { cl with data := .inner cap rel' (Lo'.map Ref.ptr) })) O' L' p { cl with data := .inner cap rel' (Lo'.map Ref.ptr) } cap rel' Lo' Ns' where
  cell := upd_self
  data := rfl
  els := h.els
  rc := h.rc
  capRc := h.capRc
  tk := h.tk
  len := hl
  val := hv
  tok := ht
  inv := hi.write List.mem_cons_self _

/-- one more child -/
theorem OpG.push (h : OpG c E u s.mem O (r :: L) p cl cap rel Lo Ns) (hr : r.val = .node N) (ht : E.gc = true → r.tok = cl.tok) (hl : Lo.length < cap) (hn : n = Lo.length) :
    ∃ cl', putKid p n r.ptr s = .ok { s with mem := upd s.mem p (some cl') } () ∧ cl'.tok = cl.tok ∧ OpG c E u (upd s.mem p (some cl')) O L p cl' cap rel (Lo ++ [r]) (Ns ++ [N]) ∧
      Kept (sys c E u) O (r :: L) s.mem (upd s.mem p (some cl')) := by
  refine ⟨{ cl with data := .inner cap rel ((Lo ++ [r]).map Ref.ptr) }, ?_, rfl, h.put (Lo' := Lo ++ [r]) (Ns' := Ns ++ [N]) rel ?_ ?_ ?_ ?_, ?_⟩
  · unfold putKid
    rw [bind_ok (kids_eq h.cell h.data), if_neg (by simp [hn]), if_pos (by simp [hn]), setKids_eq h.cell h.data (by simp; omega)]
    simp
  · exact h.inv.permL (perm_mid _ _ _).symm
  · simp [h.val, hr]
  · intro hg x hx
    rcases List.mem_append.mp hx with hx | hx
    · exact h.tok hg x hx
    · rw [List.mem_singleton] at hx
      subst hx
      exact ht hg
  · simp; omega
  · exact (Kept.write h.inv _).mono (fun x hx => List.mem_append_right _ hx) (fun _ h => h)

/-- another child -/
theorem OpG.setKid {A B : List (Ref (Val T))} {x y : Ref (Val T)} {L0 : List (Ref (Val T))} {N' : Node T} {j : Nat} (h : OpG c E u m O L0 p cl cap rel (A ++ x :: B) Ns)
    (hi : Inv (sys c E u) m' (p :: O) (y :: (A ++ B ++ L))) (hy : y.val = .node N') (hty : E.gc = true → y.tok = cl.tok) (hj : A.length = j) :
    OpG c E u (upd m' p (some { cl with data := .inner cap rel (A.map Ref.ptr ++ y.ptr :: B.map Ref.ptr) })) O L p { cl with data := .inner cap rel (A.map Ref.ptr ++ y.ptr :: B.map Ref.ptr) } cap rel (A ++ y :: B) (Ns.set j N') := by
  rw [show A.map Ref.ptr ++ y.ptr :: B.map Ref.ptr = (A ++ y :: B).map Ref.ptr by simp]
  refine h.put rel (hi.permL ?_) ?_ ?_ (by simpa using h.len)
  · simp only [List.append_assoc, List.cons_append]
    exact List.perm_middle.symm
  · have hv := h.val
    rw [List.map_set, ← hv, ← hy]
    subst hj
    simp [List.set_append_right]
  · intro hg z hz
    have ht := h.tok hg
    rcases List.mem_append.mp hz with hz | hz
    · exact ht z (List.mem_append_left _ hz)
    · rcases List.mem_cons.mp hz with rfl | hz
      · exact hty hg
      · exact ht z (List.mem_append_right _ (List.mem_cons_of_mem _ hz))

theorem OpG.from (h : OpG c E u m O L p cl cap rel Lo Ns) (hr : r ∈ Lo) : From (sys c E u) m p r.ptr := by
  refine .next .here h.cell ?_
  show r.ptr ∈ outsD cl.data
  rw [h.data]
  exact List.mem_append_right _ (List.mem_map_of_mem hr)

/-- a finished node -/
theorem OpG.closeR (h : OpG c E u m O (tr :: L) p cl cap (some tr.ptr) Lo Ns) (htr : tr.val = .table sz) (hto : ∀ c', m tr.ptr = some c' → u.live c'.tok → tr.tok = cl.tok)
    (ht : E.gc = true → cl.tok = t) : Inv (sys c E u) m O (⟨p, .node (.inner (some sz) Ns), t, true⟩ :: L) := by
  refine Inv.close (Lo := tr :: Lo) (h.inv.permL (List.perm_middle)) h.cell h.rc ?_ ?_ (fun hl => ht (live_gc hl)) ?_ ?_
  · show outsD cl.data = _
    rw [h.data]; rfl
  · show okD c E.gc cl.data cl.els _ _
    rw [h.data, h.els, List.map_cons, h.val, htr]
    exact okD_innerR' h.capRc (by rw [List.length_map]; exact h.len) (by rw [List.length_map]; exact h.length)
  · intro x hx c' hc' hl
    rcases List.mem_cons.mp hx with rfl | hx
    · exact hto c' hc' hl
    · exact h.tok (live_gc hl) x hx
  · show tokD c cl.tok cl.data cl.els
    rw [h.data]
    exact h.tk

/-- the open table `t` with the sizes `ss` -/
structure Tb (c : Cfg) (E : Env Dat T) (m : Mem Dat T) (t : Nat) (ct : Cell Dat T) (capT : Nat) (ss : List Nat) : Prop where
  cell : m t = some ct
  data : ct.data = .table capT ss
  els : ct.els = []
  rc : E.gc = false → ct.rc = 1
  capRc : E.gc = false → capT = 2 ^ c.B
  tk : ct.tok ≠ 0 → capT = 2 ^ c.B
  len : ss.length ≤ capT

theorem Tb.close (h : Tb c E m t ct capT ss) (hi : Inv (sys c E u) m (t :: O) L) {k : Nat} (ht : u.live ct.tok → ct.tok = k) : Inv (sys c E u) m O (⟨t, .table ss, k, true⟩ :: L) := by
  refine Inv.close (Lo := []) hi h.cell h.rc ?_ ?_ ht (fun x hx => by cases hx) ?_
  · show outsD ct.data = _
    rw [h.data]; rfl
  · show okD c E.gc ct.data ct.els _ _
    rw [h.data, h.els]
    exact okD_table' h.capRc h.len
  · show tokD c ct.tok ct.data ct.els
    rw [h.data]
    exact h.tk

theorem Tb.mem (h : Tb c E m t ct capT ss) (hc : m' t = m t) : Tb c E m' t ct capT ss := { h with cell := hc.trans h.cell }

theorem Tb.set (h : Tb c E m t ct capT ss) {ss' : List Nat} (hl : ss'.length ≤ capT) : Tb c E (upd m' t (some { ct with data := .table capT ss' })) t { ct with data := .table capT ss' } capT ss' where
  cell := upd_self
  data := rfl
  els := h.els
  rc := h.rc
  capRc := h.capRc
  tk := h.tk
  len := hl

/-- the table of an open node becomes a reference -/
theorem OpG.table (h : OpG c E u m (t :: O) L p cl cap rel Lo Ns) (hT : Tb c E m t ct capT ss) {k : Nat} (hk : u.live ct.tok → ct.tok = k) :
    OpG c E u m O (⟨t, .table ss, k, true⟩ :: L) p cl cap rel Lo Ns := by
  refine h.mem ?_ rfl
  have := hT.close (u := u) (O := p :: O) (h.inv.perm (List.Perm.swap _ _ _) (List.Perm.refl _)) hk
  exact this.permL List.perm_middle.symm

/-- a finished node with a table of its own -/
theorem OpG.closeT (h : OpG c E u m (t :: O) L p cl cap (some t) Lo Ns) (hT : Tb c E m t ct capT ss) (hto : u.live ct.tok → ct.tok = cl.tok) {k : Nat} (ht : E.gc = true → cl.tok = k) :
    Inv (sys c E u) m O (⟨p, .node (.inner (some ss) Ns), k, true⟩ :: L) :=
  OpG.closeR (tr := ⟨t, .table ss, cl.tok, true⟩) (h.table hT hto) rfl (fun _ _ _ => rfl) ht

theorem OpG.ne (h : OpG c E u m (t :: O) L p cl cap rel Lo Ns) : p ≠ t := by
  rintro rfl
  have := h.inv.open_nodup
  simp at this

/-- new sizes -/
theorem OpG.sizes (h : OpG c E u m (t :: O) L p cl cap rel Lo Ns) (x : Cell Dat T) : OpG c E u (upd m t (some x)) (t :: O) L p cl cap rel Lo Ns ∧ Kept (sys c E u) O L m (upd m t (some x)) := by
  refine ⟨h.mem (h.inv.write (List.mem_cons_of_mem _ List.mem_cons_self) _) (upd_ne h.ne), ?_⟩
  have := Kept.upd (O := O) h.inv (a := t) (.inl (List.mem_cons_of_mem _ List.mem_cons_self)) ?_ (some x)
  · exact this.mono (fun x hx => List.mem_append_right _ hx) (fun _ h => h)
  · have := h.inv.open_nodup
    simp at this
    exact this.2.1

/-! ### Releasing such nodes -/

theorem delInnerR_out (h : Inv (sys c E u) s.mem (p :: O) (tr :: L)) (hc : s.mem p = some cl) (hd : cl.data = .inner cap (some tr.ptr) ks) (he : cl.els = [])
    (htr : tr.val = .table sz) (hcap : cap = if E.gc && cl.tok != 0 then 2 ^ c.B else innerRoom c E n) : Out (delInnerR c E p n s) (fun s' _ => Gone c E u O L s.mem s'.mem) (fun _ => False) := by
  unfold delInnerR
  rw [bind_ok (theTable_eq hc hd), bind_assoc']
  refine out_bind (decTable_out htr h ?_) ?_
  · intro s1 ct hg hct _
    rw [bind_ok (cell_eq hct), hg, tableRoom_rc hg]
    rfl
  · intro s2 _ hg2
    have hc2 : s2.mem p = some cl := (hg2.2.2 p List.mem_cons_self).trans hc
    refine out_mono (delInner_open hg2.1 hc2 hd he hcap) ?_ (fun _ h => h)
    intro s3 _ hg3
    exact ⟨hg3.1, (Kept.open hg2.2).trans hg3.2⟩

theorem delInnerRE_out (h : Inv (sys c E u) s.mem (p :: O) (tr :: L)) (hc : s.mem p = some cl) (hd : cl.data = .inner (2 ^ c.B) (some tr.ptr) ks) (he : cl.els = [])
    (htr : tr.val = .table sz) : Out (delInnerRE c E p s) (fun s' _ => Gone c E u O L s.mem s'.mem) (fun _ => False) := by
  unfold delInnerRE
  rw [bind_ok (theTable_eq hc hd), bind_assoc']
  refine out_bind (decTable_out htr h (fun _ _ _ _ _ => rfl)) ?_
  intro s2 _ hg2
  have hc2 : s2.mem p = some cl := (hg2.2.2 p List.mem_cons_self).trans hc
  refine out_mono (dealloc_open hg2.1 hc2 (by rw [he]; rfl) (by rw [hd]; rfl)) ?_ (fun _ h => h)
  intro s3 _ hg3
  exact ⟨hg3.1, (Kept.open hg2.2).trans hg3.2⟩

theorem freeInnerR_ref (h : OpG c E u s.mem O (tr :: L) p cl cap (some tr.ptr) [] Ns) (htr : tr.val = .table sz) (hcl : cl.tok = VecHeap.tk E own) (hcap : cap = capI c E own n) :
    Out (freeInnerR c E own p n s) (fun s' _ => Gone c E u O L s.mem s'.mem) (fun _ => False) := by
  cases own with
  | none =>
    refine delInnerR_out (n := n) h.inv h.cell h.data h.els htr ?_
    rw [hcl, tk_none, hcap]
    simp [capI]
  | some e =>
    have hd := h.data
    rw [hcap] at hd
    exact delInnerRE_out h.inv h.cell hd h.els htr

/-- what the handlers do -/
theorem OpG.free (h : OpG c E u s.mem (t :: O) L p cl cap (some t) [] Ns) (hT : Tb c E s.mem t ct capT ss) (hto : ct.tok = cl.tok) (hcl : cl.tok = VecHeap.tk E own) (hcap : cap = capI c E own n) :
    Out (freeInnerR c E own p n s) (fun s' _ => Gone c E u O L s.mem s'.mem) (fun _ => False) :=
  freeInnerR_ref (tr := ⟨t, .table ss, cl.tok, true⟩) (h.table hT (fun _ => hto)) rfl hcl hcap

/-! ### Making them -/

theorem newTable_out (hE : E.Fresh) (h : Inv (sys c E u) s.mem O L) :
    Out (newTable c E own n s) (fun s' a => s.mem a = none ∧ s'.mem = upd s.mem a (some ⟨1, VecHeap.tk E own, [], .table (capI c E own n) []⟩)) (fun s' => s'.mem = s.mem) := by
  cases own with
  | none =>
    refine out_mono (alloc_out hE h.finite) ?_ (fun _ h => h)
    rintro s' a ⟨h1, _, h2, _⟩
    refine ⟨h1, h2.trans ?_⟩
    rw [tk_none]; rfl
  | some e =>
    refine out_bind (alloc_out hE h.finite) ?_
    rintro s' a ⟨h1, _, h2, _⟩
    rw [bind_ok (setTok_eq (s := s') (p := a) (by rw [h2]; exact upd_self))]
    refine ⟨h1, ?_⟩
    show upd s'.mem a _ = _
    rw [h2, upd_upd]
    congr 3

theorem newTb (h : Inv (sys c E u) m O L) (hp : m t = none) (own : Option Nat) (n : Nat) :
    Tb c E (upd m t (some ⟨1, VecHeap.tk E own, [], .table (capI c E own n) []⟩)) t ⟨1, VecHeap.tk E own, [], .table (capI c E own n) []⟩ (capI c E own n) [] where
  cell := upd_self
  data := rfl
  els := rfl
  rc := fun _ => rfl
  capRc := capI_rc
  tk := capI_tk
  len := Nat.zero_le _

/-- `make_inner_r_n`, `make_inner_r_e` -/
theorem newInnerR_out (hE : E.Fresh) (h : Inv (sys c E u) s.mem O L) :
    Out (newInnerR c E own n s) (fun s' p => ∃ (t : Nat) (cl ct : Cell Dat T), OpG c E u s'.mem (t :: O) L p cl (capI c E own n) (some t) [] [] ∧ Tb c E s'.mem t ct (capI c E own n) [] ∧ cl.tok = VecHeap.tk E own ∧
      ct.tok = VecHeap.tk E own ∧ Kept (sys c E u) O L s.mem s'.mem ∧ s.mem p = none) (fun s' => s'.mem = s.mem) := by
  unfold newInnerR
  refine out_bind (newInner_out hE h) ?_
  rintro s1 p ⟨hp, hs1⟩
  have hop := OpG.of (Op.new h hp n own)
  rw [← hs1] at hop
  refine out_bind (out_guard (E := fun s' => s'.mem = s.mem) (newTable_out hE hop.inv) ?_) ?_
  · intro s2 hs2
    have hde : ∀ k, k = capI c E own n → (dealloc VecHeap.room p 0 (innerSz k) : HM T Unit) s2 = .ok { s2 with mem := upd s2.mem p none } () := by
      rintro _ rfl
      exact dealloc_eq (by rw [hs2]; exact hop.cell) rfl rfl
    rw [hde _ (by cases own <;> rfl)]
    show upd s2.mem p none = s.mem
    rw [hs2, hs1, upd_upd, upd_same hp]
  · rintro s2 t ⟨ht, hs2⟩
    have hne : p ≠ t := by
      rintro rfl
      rw [hop.cell] at ht; cases ht
    have hc2 : s2.mem p = some ⟨1, VecHeap.tk E own, [], .inner (capI c E own n) none []⟩ := by rw [hs2, upd_ne hne]; exact hop.cell
    have hT := newTb hop.inv ht own n
    rw [← hs2] at hT
    rw [bind_ok (setTable_eq hc2 hop.data)]
    have hi2 : Inv (sys c E u) s2.mem (p :: t :: O) L := by
      rw [hs2]
      exact (hop.inv.alloc ht _).perm (List.Perm.swap _ _ _) (List.Perm.refl _)
    refine ⟨t, _, _, hop.put (Lo' := []) (some t) hi2 rfl (fun _ _ h => by cases h) (Nat.zero_le _), hT.mem (upd_ne (Ne.symm hne)), rfl, rfl, ?_, hp⟩
    have hk1 : Kept (sys c E u) O L s.mem s1.mem := by rw [hs1]; exact Kept.new h hp _
    have hk2 : Kept (sys c E u) O L s1.mem s2.mem := by rw [hs2]; exact Kept.open (Kept.new hop.inv ht _)
    refine (hk1.trans hk2).trans ?_
    exact (Kept.write hi2 _).mono (fun _ h => h) (fun _ h => List.mem_cons_of_mem _ h)

/-- `make_inner_sr_n`, `make_inner_sr_e` -/
theorem newInnerSr_out (hE : E.Fresh) (h : Inv (sys c E u) s.mem O L) (ha : At (sys c E u) s.mem L t (.table sz)) (hh : Held (sys c E u) s.mem L t) :
    Out (newInnerSr c E own n t s) (fun s' p => ∃ cl, OpG c E u s'.mem O (⟨t, .table sz, VecHeap.tk E own, false⟩ :: L) p cl (capI c E own n) (some t) [] [] ∧ cl.tok = VecHeap.tk E own ∧
      Kept (sys c E u) O L s.mem s'.mem ∧ s.mem p = none) (fun s' => s'.mem = s.mem) := by
  unfold newInnerSr
  refine out_bind (newInner_out hE h) ?_
  rintro s1 p ⟨hp, hs1⟩
  have hop := OpG.of (Op.new h hp n own)
  rw [← hs1] at hop
  have hk1 : Kept (sys c E u) O L s.mem s1.mem := by rw [hs1]; exact Kept.new h hp _
  have ha1 := ha.kept hk1
  obtain ⟨h1, h2, h3⟩ := dup_refs hop.inv (Lc := [⟨t, .table sz, VecHeap.tk E own, false⟩]) (by
    intro x hx
    rw [List.mem_singleton] at hx
    subst hx
    exact ⟨rfl, ha1, hh.kept hk1⟩) (VecHeap.tk E own)
  obtain ⟨ct, hct⟩ := h3 _ (List.mem_singleton_self _)
  rw [bind_ok (inc_eq hct)]
  have hnot : p ∉ [t] := by
    intro hm
    rw [List.mem_singleton] at hm
    exact hop.inv.reach_notin ha1.reach (by rw [← hm]; exact List.mem_cons_self)
  have hcell : incs E.gc s1.mem [t] p = some _ := (incs_open hop.inv hnot).trans hop.cell
  rw [bind_ok (setTable_eq (st := { s1 with mem := incs E.gc s1.mem [t] }) hcell hop.data)]
  refine ⟨_, hop.put (Lo' := []) (some t) h1 rfl (fun _ _ h => by cases h) (Nat.zero_le _), rfl, ?_, hp⟩
  refine (hk1.trans (Kept.open h2)).trans ?_
  exact (Kept.write h1 _).mono (fun x hx => List.mem_append_right _ hx) (fun _ h => h)

/-- `do_copy_inner` to a node without children -/
theorem copyInnerG_out {dst src : Nat} (h : OpG c E u s.mem O L dst cl cap rel [] []) (ha : At (sys c E u) s.mem L src (.node (.inner rs Ns))) (hn : n ≤ Ns.length) (hcap : n ≤ cap) :
    Out (doCopyInner E dst src n s) (fun s' _ => ∃ cl' Lc, cl'.tok = cl.tok ∧ OpG c E u s'.mem O L dst cl' cap rel Lc (Ns.take n) ∧ Kept (sys c E u) O L s.mem s'.mem ∧
      ∀ cp cap' rel' ks, s.mem src = some cp → cp.data = .inner cap' rel' ks → Lc.map Ref.ptr = ks.take n) (fun _ => False) := by
  have hi : Inv (sys c E u) s.mem (dst :: O) L := h.inv
  obtain ⟨cs, cp, rel0, Lc, hc, hd, hv, hO, hx, _⟩ := at_innerG hi ha
  have hlen : Lc.length = Ns.length := by simpa using congrArg List.length hv
  have hx' : ∀ x ∈ Lc.take n, _ := fun x hm => hx x (List.mem_of_mem_take hm)
  obtain ⟨h1, h2, h3⟩ := dup_refs hi hx' cl.tok
  unfold doCopyInner
  rw [bind_ok (kids_eq hc hd), bind_ok (liftO_eq (b := (Lc.take n).map Ref.ptr) (by
    unfold slice
    rw [if_pos ⟨Nat.zero_le _, by rw [List.length_map]; omega⟩, List.map_take]; rfl))]
  rw [bind_ok (incAll_eq _ _ (by
    intro a hm
    obtain ⟨x, hxm, rfl⟩ := List.mem_map.mp hm
    exact h3 x hxm))]
  have hnot : dst ∉ (Lc.take n).map Ref.ptr := by
    intro hm
    obtain ⟨x, hxm, he⟩ := List.mem_map.mp hm
    exact hi.reach_notin (hx' x hxm).2.1.reach (by rw [he]; exact List.mem_cons_self)
  have hcell : incs E.gc s.mem ((Lc.take n).map Ref.ptr) dst = some cl := (incs_open hi hnot).trans h.cell
  rw [setKids_eq (s := { s with mem := incs E.gc s.mem ((Lc.take n).map Ref.ptr) }) hcell h.data (by simp; omega)]
  have hop := h.put (Lo' := (Lc.take n).map fun x => { x with tok := cl.tok }) (Ns' := Ns.take n) rel h1 (by
      simp only [List.map_map, List.map_take]
      rw [← hv]; rfl) (by
      intro _ x hm
      obtain ⟨y, _, rfl⟩ := List.mem_map.mp hm
      rfl) (by simp; omega)
  rw [List.map_map] at hop
  refine ⟨_, _, ?_, hop, ?_, ?_⟩
  · rfl
  · refine (h2.mono (fun _ h => h) (fun _ h => List.mem_cons_of_mem _ h)).trans ?_
    exact (Kept.write h1 _).mono (fun x hx => List.mem_append_right _ hx) (fun _ h => h)
  · intro cp' cap' rel' ks hc' hd'
    rw [hc] at hc'
    cases hc'
    rw [hd] at hd'
    cases hd'
    rw [List.map_map, List.map_take]
    rfl

/-- `do_copy_inner_r` -/
theorem copyInnerR_out {dst src : Nat} (h : OpG c E u s.mem (t :: O) L dst cl cap (some t) [] []) (hT : Tb c E s.mem t ct capT []) (ha : At (sys c E u) s.mem L src (.node (.inner (some sz) Ns))) (hn : n ≤ Ns.length)
    (hsz : sz.length = Ns.length) (hcap : n ≤ cap) (hcapT : n ≤ capT) :
    Out (doCopyInnerR E dst src n s) (fun s' _ => ∃ cl' ct' Lc, cl'.tok = cl.tok ∧ ct'.tok = ct.tok ∧ OpG c E u s'.mem (t :: O) L dst cl' cap (some t) Lc (Ns.take n) ∧ Tb c E s'.mem t ct' capT (sz.take n) ∧
      Kept (sys c E u) O L s.mem s'.mem) (fun _ => False) := by
  obtain ⟨cs, cp, t0, Lc, hc, hd, hv, hO, hx, hta, _⟩ := at_innerR h.inv ha
  unfold doCopyInnerR
  rw [bind_ok (theTable_eq hc hd), bind_ok (theTable_eq h.cell h.data)]
  refine out_bind (copyInnerG_out h ha hn hcap) ?_
  rintro s1 _ ⟨cl', Lc', htk, hop, hk, _⟩
  have hT1 : Tb c E s1.mem t ct capT [] := hT.mem (hk.2 t List.mem_cons_self)
  have ht1 := hta.kept hk
  rw [bind_ok (sizesOf_den ht1.den), bind_ok (liftO_eq (b := sz.take n) (by
    unfold slice
    rw [if_pos ⟨Nat.zero_le _, by omega⟩]; rfl))]
  have hlt : (sz.take n).length ≤ capT := by rw [List.length_take]; omega
  rw [setSizes_eq hT1.cell hT1.data hlt]
  obtain ⟨h1, h2⟩ := hop.sizes { ct with data := .table capT (sz.take n) }
  exact ⟨cl', { ct with data := .table capT (sz.take n) }, Lc', htk, rfl, h1, hT1.set hlt, (Kept.open hk).trans h2⟩

/-- `do_copy_inner_replace` -/
theorem copyReplaceG_out {dst src off : Nat} (h : OpG c E u s.mem O (r :: L) dst cl cap rel [] []) (ha : At (sys c E u) s.mem L src (.node (.inner rs Ns))) (hr : r.val = .node N) (ht : E.gc = true → r.tok = cl.tok)
    (hn : n = Ns.length) (hcap : n ≤ cap) (hoff : off < n) :
    Out (doCopyInnerReplace E dst src n off r.ptr s) (fun s' _ => ∃ cl' Lc, cl'.tok = cl.tok ∧ OpG c E u s'.mem O L dst cl' cap rel Lc (Ns.set off N) ∧ Kept (sys c E u) O L s.mem s'.mem) (fun _ => False) := by
  have hi : Inv (sys c E u) s.mem (dst :: O) (r :: L) := h.inv
  have ha' := At.mono (L' := r :: L) (fun x hx => List.mem_cons_of_mem _ hx) ha
  obtain ⟨cs, cp, rel0, Lc, hc, hd, hv, hO, hx, _⟩ := at_innerG hi ha'
  have hlen : Lc.length = Ns.length := by simpa using congrArg List.length hv
  have hx' : ∀ x ∈ Lc.take off ++ Lc.drop (off + 1), _ := fun x hm => hx x (by
    rcases List.mem_append.mp hm with hm | hm
    · exact List.mem_of_mem_take hm
    · exact List.mem_of_mem_drop hm)
  obtain ⟨h1, h2, h3⟩ := dup_refs hi hx' cl.tok
  unfold doCopyInnerReplace
  rw [bind_ok (kids_eq hc hd), bind_ok (liftO_eq (b := Lc.map Ref.ptr) (by
    unfold slice
    rw [if_pos ⟨Nat.zero_le _, by rw [List.length_map]; omega⟩, List.drop_zero, List.take_of_length_le (by simp; omega)])), if_pos (by simp; omega)]
  rw [← List.map_take, ← List.map_drop, bind_ok (incAll_eq _ _ (by
    intro a hm
    obtain ⟨x, hxm, rfl⟩ := List.mem_map.mp hm
    exact h3 x (List.mem_append_left _ hxm)))]
  rw [bind_ok (incAll_eq (s := { s with mem := _ }) _ (by
    intro a hm
    obtain ⟨x, hxm, rfl⟩ := List.mem_map.mp hm
    obtain ⟨cx, hcx⟩ := h3 x (List.mem_append_right _ hxm)
    exact ⟨_, incs_some hcx⟩))]
  simp only [incs_append, ← List.map_append]
  have hnot : dst ∉ (Lc.take off ++ Lc.drop (off + 1)).map Ref.ptr := by
    intro hm
    obtain ⟨x, hxm, he⟩ := List.mem_map.mp hm
    exact hi.reach_notin (hx' x hxm).2.1.reach (by rw [he]; exact List.mem_cons_self)
  have hcell : incs E.gc s.mem ((Lc.take off ++ Lc.drop (off + 1)).map Ref.ptr) dst = some cl := (incs_open hi hnot).trans h.cell
  rw [setKids_eq (s := { s with mem := incs E.gc s.mem ((Lc.take off ++ Lc.drop (off + 1)).map Ref.ptr) }) hcell h.data (by simp; omega)]
  have hset : (Lc.map Ref.ptr).set off r.ptr = (((Lc.map fun x => { x with tok := cl.tok }).set off r).map Ref.ptr) := by
    rw [List.map_set, List.map_map]; rfl
  rw [hset]
  have hop := h.put (L' := L) (Lo' := (Lc.map fun x => { x with tok := cl.tok }).set off r) (Ns' := Ns.set off N) rel (h1.permL (by
      rw [List.set_eq_take_append_cons_drop, if_pos (by simp; omega), List.map_append, List.map_take, List.map_drop]
      simp only [List.append_assoc, List.cons_append]
      refine List.Perm.append_left _ ?_
      exact List.perm_middle)) (by
      rw [List.map_set, List.map_set, hr]
      congr 1
      rw [← hv, List.map_map]; rfl) (by
      intro hg x hm
      rcases List.mem_or_eq_of_mem_set hm with hm | rfl
      · obtain ⟨y, _, rfl⟩ := List.mem_map.mp hm
        rfl
      · exact ht hg) (by simp; omega)
  refine ⟨_, _, ?_, hop, ?_⟩
  · rfl
  refine ((Kept.tail h2).mono (fun _ h => h) (fun _ h => List.mem_cons_of_mem _ h)).trans ?_
  exact (Kept.write h1 _).mono (fun x hx => List.mem_append_right _ (List.mem_cons_of_mem _ hx)) (fun _ h => h)

/-! ### Nodes that may be changed -/

theorem open_innerR (he : E.gc = true → u.live e) (h : Inv (sys c E u) m O (r :: L)) (hr : r.val = .node (.inner (some sz) Ns)) (hc : m r.ptr = some cl) (hm : mutable E e cl = true) :
    ∃ (cap : Nat) (tr : Ref (Val T)) (Lo : List (Ref (Val T))), OpG c E u m O (tr :: L) r.ptr cl cap (some tr.ptr) Lo Ns ∧ cap = 2 ^ c.B ∧ tr.val = .table sz ∧ (E.gc = true → tr.tok = cl.tok) := by
  have htk := h.tk List.mem_cons_self hc
  obtain ⟨Lo, ho, hok, htok, hi⟩ := h.open_ hc (mutable_open he hm _)
  rw [hr] at hok
  obtain ⟨cap, tr, Lc, rfl, h1, h2, h3, h4, h5, h6⟩ := okD_innerR hok ho
  have htk : tokD c cl.tok cl.data cl.els := htk
  rw [h1] at htk
  have htk : cl.tok ≠ 0 → cap = 2 ^ c.B := htk
  refine ⟨cap, tr, Lc, ⟨hc, h1, h2, fun hg => mutable_rc hg hm, h3, htk, h4, h6, fun _ x hx => htok x (List.mem_cons_of_mem _ hx), hi.permL List.perm_middle.symm⟩, ?_, h5, fun _ => htok tr List.mem_cons_self⟩
  by_cases hg : E.gc = true
  · refine htk ?_
    rw [mutable_tok hg hm]
    intro h0
    exact u.live0 (h0 ▸ he hg)
  · exact h3 (by simpa using hg)

theorem newTableK_out (hE : E.Fresh) {k : Kind} (h : Inv (sys c E u) s.mem O L) :
    Out (newTableK c E k s) (fun s' a => s.mem a = none ∧ s'.mem = upd s.mem a (some ⟨1, 0, [], .table (2 ^ c.B) []⟩)) (fun s' => s'.mem = s.mem ∧ ∃ j, s.fault = some (k, j)) := by
  unfold newTableK
  refine out_bind (Q := fun s' _ => s'.mem = s.mem ∧ s'.clock = s.clock) ?_ ?_
  · unfold tick
    cases hf : s.fault with
    | none => exact ⟨rfl, rfl⟩
    | some kn =>
      obtain ⟨k', j⟩ := kn
      simp only
      by_cases hk : k = k'
      · subst hk
        rw [if_pos rfl]
        cases j with
        | zero => exact ⟨rfl, 0, rfl⟩
        | succ j => exact ⟨rfl, rfl⟩
      · rw [if_neg hk]; exact ⟨rfl, rfl⟩
  · rintro s1 _ ⟨h1, _⟩
    refine ⟨?_, ?_⟩
    · rw [← h1]
      exact (hE s1.clock s1.mem (by rw [h1]; exact h.finite)).1
    · show upd s1.mem _ _ = _
      rw [h1]

theorem newTbK (own : Nat) : Tb c E (upd m t (some ⟨1, own, [], .table (2 ^ c.B) []⟩)) t ⟨1, own, [], .table (2 ^ c.B) []⟩ (2 ^ c.B) [] where
  cell := upd_self
  data := rfl
  els := rfl
  rc := fun _ => rfl
  capRc := fun _ => rfl
  tk := fun _ => rfl
  len := Nat.zero_le _

/-- `ensure_mutable_relaxed`, whatever the children are -/
theorem mutTable_raw (hE : E.Fresh) (he : E.gc = true → u.live e) {k : Kind} (hc : s.mem p = some cl) (hd : cl.data = .inner cap (some tr.ptr) ks) (hi : Inv (sys c E u) s.mem (p :: O) (tr :: L)) (htr : tr.val = .table sz)
    (hn : n ≤ sz.length) (hsz : sz.length ≤ 2 ^ c.B) :
    Out (mutTable c E k e p n s) (fun s' t => ∃ (ct : Cell Dat T) (ss : List Nat), s'.mem p = some { cl with data := .inner cap (some t) ks } ∧ Inv (sys c E u) s'.mem (p :: t :: O) L ∧ Tb c E s'.mem t ct (2 ^ c.B) ss ∧
      (ss = sz ∨ ss = sz.take n) ∧ (u.live ct.tok → ct.tok = e) ∧ Kept (sys c E u) O L s.mem s'.mem) (fun s' => s'.mem = s.mem ∧ ∃ j, s.fault = some (k, j)) := by
  obtain ⟨ct, _, hct, _⟩ := hi.look (List.mem_cons_self (a := tr))
  unfold mutTable
  rw [bind_ok (theTable_eq hc hd), bind_ok (canMutate_eq hct)]
  by_cases hm : mutable E e ct = true
  · rw [if_pos hm]
    have htk := hi.tk List.mem_cons_self hct
    obtain ⟨Lo', ho, hok, _, hi'⟩ := hi.open_ hct (mutable_open he hm _)
    rw [htr] at hok
    obtain ⟨capT, hdt, hels, hcap, hl, hv⟩ := okD_table hok
    have : Lo' = [] := List.map_eq_nil_iff.mp hv
    subst this
    have htk : tokD c ct.tok ct.data ct.els := htk
    rw [hdt] at htk
    have htk : ct.tok ≠ 0 → capT = 2 ^ c.B := htk
    have hc2 : capT = 2 ^ c.B := by
      by_cases hg : E.gc = true
      · refine htk ?_
        rw [mutable_tok hg hm]
        intro h0
        exact u.live0 (h0 ▸ he hg)
      · exact hcap (by simpa using hg)
    subst hc2
    refine ⟨ct, sz, ?_, hi'.perm (List.Perm.swap _ _ _) (List.Perm.refl _), ⟨hct, hdt, hels, fun hg => mutable_rc hg hm, fun _ => rfl, fun _ => rfl, hl⟩, .inl rfl, fun hl => mutable_tok (live_gc hl) hm, .refl⟩
    rw [← hd]; exact hc
  · rw [if_neg hm]
    have hm := Bool.eq_false_iff.mpr hm
    refine out_bind (newTableK_out hE hi) ?_
    rintro s1 t ⟨ht, hs1⟩
    have hnp : p ≠ t := by
      rintro rfl
      rw [hc] at ht; cases ht
    have hi1 : Inv (sys c E u) s1.mem (t :: p :: O) (tr :: L) := by rw [hs1]; exact hi.alloc ht _
    have hk1 : Kept (sys c E u) (p :: O) (tr :: L) s.mem s1.mem := by rw [hs1]; exact Kept.new hi ht _
    have hT1 : Tb c E s1.mem t ⟨1, 0, [], .table (2 ^ c.B) []⟩ (2 ^ c.B) [] := by rw [hs1]; exact newTbK 0
    have hden := hi1.den (r := tr) List.mem_cons_self
    rw [htr] at hden
    have hlt : (sz.take n).length ≤ 2 ^ c.B := by rw [List.length_take]; omega
    rw [bind_ok (sizesOf_den hden), bind_ok (liftO_eq (b := sz.take n) (by
      unfold slice
      rw [if_pos ⟨Nat.zero_le _, by omega⟩]; rfl)), bind_ok (setSizes_eq hT1.cell hT1.data hlt)]
    have hT2 := hT1.set (m' := s1.mem) hlt
    have hi2 : Inv (sys c E u) (upd s1.mem t (some ⟨1, 0, [], .table (2 ^ c.B) (sz.take n)⟩)) (t :: p :: O) (tr :: L) := hi1.write List.mem_cons_self _
    have hk2 : Kept (sys c E u) (p :: O) (tr :: L) s1.mem (upd s1.mem t (some ⟨1, 0, [], .table (2 ^ c.B) (sz.take n)⟩)) := Kept.write hi1 _
    rw [bind_assoc']
    have hktr := (hk1.trans hk2).1 tr.ptr ⟨tr, List.mem_cons_self, .here⟩ ct hct
    obtain ⟨ct2, hct2, hsame⟩ := hktr
    have hnt : tr.ptr ≠ t := by
      intro h0
      rw [h0, ht] at hct; cases hct
    have hct2' : upd s1.mem t (some ⟨1, 0, [], .table (2 ^ c.B) (sz.take n)⟩) tr.ptr = some ct := by rw [upd_ne hnt, hs1, upd_ne hnt]; exact hct
    refine out_bind (out_mono (dec_shared (s := { s1 with mem := upd s1.mem t (some ⟨1, 0, [], .table (2 ^ c.B) (sz.take n)⟩) }) (r := tr) hi2 (fun hg => reach_of_shared hi2 hct2' hm hg)) (fun _ _ h => h) (fun _ h => h.elim)) ?_
    intro s3 _ hg3
    have hT3 : Tb c E s3.mem t _ (2 ^ c.B) (sz.take n) := hT2.mem (hg3.2.2 t List.mem_cons_self)
    have hc3 : s3.mem p = some cl := by
      rw [hg3.2.2 p (List.mem_cons_of_mem _ List.mem_cons_self)]
      show upd s1.mem t _ p = _
      rw [upd_ne hnp, hs1, upd_ne hnp]
      exact hc
    rw [bind_ok (setTok_eq hT3.cell)]
    have hi4 : Inv (sys c E u) (upd s3.mem t (some ⟨1, if E.gc then e else 0, [], .table (2 ^ c.B) (sz.take n)⟩)) (t :: p :: O) L := hg3.1.write List.mem_cons_self _
    have hc4 : upd s3.mem t (some ⟨1, if E.gc then e else 0, [], .table (2 ^ c.B) (sz.take n)⟩) p = some cl := by rw [upd_ne hnp]; exact hc3
    rw [bind_ok (setTable_eq (st := { s3 with mem := upd s3.mem t (some ⟨1, if E.gc then e else 0, [], .table (2 ^ c.B) (sz.take n)⟩) }) hc4 hd)]
    have hi5 := hi4.perm (List.Perm.swap p t O) (List.Perm.refl _)
    refine ⟨⟨1, if E.gc then e else 0, [], .table (2 ^ c.B) (sz.take n)⟩, sz.take n, upd_self, hi5.write List.mem_cons_self _, ?_, .inr rfl, ?_, ?_⟩
    · refine ⟨?_, rfl, rfl, fun _ => rfl, fun _ => rfl, fun _ => rfl, hlt⟩
      show upd _ p _ t = _
      rw [upd_ne (Ne.symm hnp)]
      exact upd_self
    · intro hl
      show (if E.gc then e else 0) = e
      rw [if_pos (live_gc hl)]
    · have hsub : ∀ x ∈ L, x ∈ tr :: L := fun x hx => List.mem_cons_of_mem _ hx
      refine (((hk1.trans hk2).mono hsub (fun _ h => List.mem_cons_of_mem _ h)).trans (hg3.2.mono (fun _ h => h) (fun _ h => List.mem_cons_of_mem _ (List.mem_cons_of_mem _ h)))).trans ?_
      refine ((Kept.write hg3.1 (some ⟨1, if E.gc then e else 0, [], .table (2 ^ c.B) (sz.take n)⟩)).mono (fun _ h => h) (fun _ h => List.mem_cons_of_mem _ h)).trans ?_
      exact (Kept.write hi5 _).mono (fun _ h => h) (fun _ h => List.mem_cons_of_mem _ h)

/-- `ensure_mutable_relaxed`: the table may be changed afterwards -/
theorem mutTable_out (hE : E.Fresh) (he : E.gc = true → u.live e) {k : Kind} (h : OpG c E u s.mem O (tr :: L) p cl cap (some tr.ptr) Lo Ns) (htr : tr.val = .table sz)
    (hn : n ≤ sz.length) (hsz : sz.length ≤ 2 ^ c.B) :
    Out (mutTable c E k e p n s) (fun s' t => ∃ (cl' ct : Cell Dat T) (ss : List Nat), OpG c E u s'.mem (t :: O) L p cl' cap (some t) Lo Ns ∧ Tb c E s'.mem t ct (2 ^ c.B) ss ∧ (ss = sz ∨ ss = sz.take n) ∧
      (u.live ct.tok → ct.tok = e) ∧ cl'.tok = cl.tok ∧ Kept (sys c E u) O L s.mem s'.mem) (fun s' => s'.mem = s.mem ∧ ∃ j, s.fault = some (k, j)) := by
  refine out_mono (mutTable_raw (k := k) hE he h.cell h.data (h.inv.permL List.perm_middle) htr hn hsz) ?_ (fun _ h => h)
  rintro s' t ⟨ct, ss, h1, h2, h3, h4, h5, h6⟩
  refine ⟨_, ct, ss, ⟨h1, rfl, h.els, h.rc, h.capRc, h.tk, h.len, h.val, h.tok, h2⟩, h3, h4, h5, rfl, h6.mono (fun x hx => List.mem_append_right _ hx) (fun _ h => h)⟩

end
end FlexHeap
