import Verif.FlexHeap.SliceMut

/-!
# Slices of flexible vectors on the left that change nodes
-/

namespace FlexHeap
open Mm Rrb VecHeap

variable {T : Type} {c : Cfg} {E : Env Dat T} {u : Toks E.gc} {O : List Nat} {L : List (Ref (Val T))}

section
variable {s : St Dat T} {m m' : Mem Dat T} {p q n i j t l e k : Nat} {N R Y x : Node T} {Ns : List (Node T)} {ks sz ss : List Nat} {cl ct : Cell Dat T} {r tr : Ref (Val T)} {own : Option Nat} {cap capT : Nat}
  {rel : Option Nat} {Lo : List (Ref (Val T))} {rs : Option (List Nat)} {idx : Nat} {mu : Bool} {xs : List T} {X : Elem T}

/-! ### Leaves -/

/-- The element type may be used in place: moving an object to itself leaves it alone.  For others see F23. -/
def Elem.Ok (X : Elem T) : Prop := X.nothrow = true → ∀ x, X.self x = x

/-- `std::move` to the left by at least one -/
theorem moveDown_left (hi : 0 < i) : ∀ (zs : List T) (pre mid post : List (Slot T)) (o n : Nat) (s : St Dat T) (cl : Cell Dat T), s.mem p = some cl → cl.els = pre ++ mid ++ zs.map Slot.live ++ post → pre.length = o → mid.length = i →
    zs.length = n → (∀ x ∈ mid, x.there = true) →
    ∃ mid', mid'.length = i ∧ (∀ x ∈ mid', Slot.there x = true) ∧ moveDown X p i o n s = .ok { s with mem := upd s.mem p (some { cl with els := pre ++ zs.map Slot.live ++ mid' ++ post }) } ()
  | [], pre, mid, post, o, n, s, cl, hc, he, ho, hm, hn, ht => by
    subst hn
    refine ⟨mid, hm, ht, ?_⟩
    unfold moveDown
    rw [show pre ++ List.map Slot.live [] ++ mid ++ post = cl.els by rw [he]; simp]
    rw [upd_same hc]
    rfl
  | z :: zs, pre, mid, post, o, n, s, cl, hc, he, ho, hm, hn, ht => by
    subst hn
    cases mid with
    | nil => simp at hm; omega
    | cons y mid =>
      have h1 : cl.els[i + o]? = some (.live z) := by
        rw [he, show pre ++ y :: mid ++ (z :: zs).map Slot.live ++ post = (pre ++ y :: mid) ++ (Slot.live z :: (zs.map Slot.live ++ post)) by simp]
        rw [List.getElem?_append_right (by simp [ho] at hm ⊢; omega)]
        simp only [List.length_append, ho, hm]
        rw [show i + o - (o + i) = 0 by omega]
        rfl
      have h2 : cl.els.set (i + o) .moved = pre ++ y :: (mid ++ [.moved]) ++ zs.map Slot.live ++ post := by
        rw [he, show pre ++ y :: mid ++ (z :: zs).map Slot.live ++ post = (pre ++ y :: mid) ++ (Slot.live z :: (zs.map Slot.live ++ post)) by simp]
        rw [List.set_append_right _ _ (by simp [ho] at hm ⊢; omega)]
        simp only [List.length_append, ho, hm]
        rw [show i + o - (o + i) = 0 by omega]
        simp
      have h3 : (cl.els.set (i + o) .moved)[o]? = some y := by
        rw [h2, show pre ++ y :: (mid ++ [.moved]) ++ zs.map Slot.live ++ post = pre ++ (y :: (mid ++ [.moved] ++ zs.map Slot.live ++ post)) by simp, List.getElem?_append_right (by omega), ho, Nat.sub_self]
        rfl
      have h4 : (cl.els.set (i + o) .moved).set o (.live z) = (pre ++ [.live z]) ++ (mid ++ [.moved]) ++ zs.map Slot.live ++ post := by
        rw [h2, show pre ++ y :: (mid ++ [.moved]) ++ zs.map Slot.live ++ post = pre ++ (y :: (mid ++ [.moved] ++ zs.map Slot.live ++ post)) by simp, List.set_append_right _ _ (by omega), ho, Nat.sub_self]
        simp
      have hy : (cl.els.set (i + o) .moved)[o]? = some (.live z) ∨ (cl.els.set (i + o) .moved)[o]? = some .moved ∨ ∃ w, (cl.els.set (i + o) .moved)[o]? = some (.live w) := by
        have := ht y List.mem_cons_self
        cases y with
        | raw => cases this
        | live w => exact .inr (.inr ⟨w, h3⟩)
        | moved => exact .inr (.inl h3)
      have hstep : ((moveEl p (i + o)).bind fun x => assignEl p o x) s = .ok { s with mem := upd s.mem p (some { cl with els := (cl.els.set (i + o) .moved).set o (.live z) }) } () := by
        rw [bind_ok (moveEl_eq hc h1)]
        have hc1 : (upd s.mem p (some { cl with els := cl.els.set (i + o) .moved })) p = some { cl with els := cl.els.set (i + o) .moved } := upd_self
        rcases hy with hy | hy | ⟨w, hy⟩
        · rw [assignEl_eq (s := { s with mem := upd s.mem p (some { cl with els := cl.els.set (i + o) .moved }) }) hc1 (.inl hy)]
          simp only [upd_upd]
        · rw [assignEl_eq (w := z) (s := { s with mem := upd s.mem p (some { cl with els := cl.els.set (i + o) .moved }) }) hc1 (.inr hy)]
          simp only [upd_upd]
        · rw [assignEl_eq (s := { s with mem := upd s.mem p (some { cl with els := cl.els.set (i + o) .moved }) }) hc1 (.inl hy)]
          simp only [upd_upd]
      obtain ⟨mid', e1, e2, e3⟩ := moveDown_left hi zs (pre ++ [.live z]) (mid ++ [.moved]) post (o + 1) zs.length { s with mem := upd s.mem p (some { cl with els := (cl.els.set (i + o) .moved).set o (.live z) }) }
        { cl with els := (cl.els.set (i + o) .moved).set o (.live z) } upd_self h4 (by simp [ho]) (by simpa using hm) rfl (by
          intro x hx
          rcases List.mem_append.mp hx with hx | hx
          · exact ht x (List.mem_cons_of_mem _ hx)
          · rw [List.mem_singleton.mp hx]; rfl)
      refine ⟨mid', e1, e2, ?_⟩
      simp only [List.length_cons, moveDown]
      rw [if_neg (by omega), bind_ok hstep, e3]
      simp only [upd_upd, List.map_cons, List.append_assoc, List.singleton_append, List.cons_append, List.nil_append]

/-- `std::move` of a range to itself -/
theorem moveDown_self (hX : ∀ x, X.self x = x) : ∀ (zs : List T) (pre post : List (Slot T)) (o n : Nat) (s : St Dat T) (cl : Cell Dat T), s.mem p = some cl → cl.els = pre ++ zs.map Slot.live ++ post → pre.length = o →
    zs.length = n → moveDown X p 0 o n s = .ok s ()
  | [], pre, post, o, n, s, cl, hc, he, ho, hn => by
    subst hn
    unfold moveDown
    rfl
  | z :: zs, pre, post, o, n, s, cl, hc, he, ho, hn => by
    subst hn
    have h1 : cl.els[o]? = some (.live z) := by
      rw [he, List.append_assoc, List.getElem?_append_right (by omega), ho, Nat.sub_self]
      rfl
    have h2 : cl.els.set o (.live z) = cl.els := by
      rw [he, List.append_assoc, List.set_append_right _ _ (by omega), ho, Nat.sub_self]
      rfl
    have hstep : ((readEl p o).bind fun x => assignEl p o (X.self x)) s = .ok s () := by
      rw [bind_ok (readEl_eq hc h1), hX, assignEl_eq hc (.inl h1), h2, upd_same hc]
    simp only [List.length_cons, moveDown, if_true]
    rw [bind_ok hstep]
    exact moveDown_self hX zs (pre ++ [.live z]) post (o + 1) zs.length s cl hc (by rw [he]; simp) (by simp [ho]) rfl

/-- `visit_leaf` takes the reference to the leaf -/
theorem sliceLeafMut_out (hB : 0 < c.B) (hE : E.Fresh) (he : E.gc = true → u.live e) (hX : X.Ok) {sh : Shp} {res : Nat × Node T} (hf : Fits c 0 sh N) (hi : idx < (els 0 N).length)
    (hv : Rrb.sliceLeft c false 0 (sh.pos N) idx = some res) (hr : r.val = .node N) (h : Inv (sys c E u) s.mem O (r :: L)) :
    Out (sliceLeafLeft c E X (some e) true r.ptr sh idx s) (fun s' q => q.1 = res.1 ∧ Inv (sys c E u) s'.mem O (⟨q.2, .node res.2, e, false⟩ :: L) ∧ Kept (sys c E u) O L s.mem s'.mem)
      (fun s' => Gone c E u O (r :: L) s.mem s'.mem) := by
  obtain ⟨hn, hc, h1, h2, hix⟩ := PosOK.leaf (show PosOK c 0 (sh.pos N) (els 0 N) from hf)
  have e1 := hix idx idx IdxOK.of_eq hi
  have hN := hn
  rw [pos_node] at hN
  simp only [Rrb.sliceLeft, e1, hn, Rrb.copyLeafI, Node.leaf?, hc, Option.bind_eq_bind, Option.bind_some] at hv
  rw [slice_ok (by omega) (Nat.le_refl _)] at hv
  simp only [Option.bind_some, mkLeaf] at hv
  rw [if_pos (by simp; omega), List.take_of_length_le (by simp)] at hv
  cases hv
  rw [pos_index] at e1
  rw [pos_count] at hc
  obtain ⟨cl, Lo, hcl, ho, hok, _⟩ := h.look (List.mem_cons_self (a := r))
  rw [hN] at hr
  unfold sliceLeafLeft
  rw [bind_ok (liftO_eq e1)]
  have hb : mayMutate E (some e) (true && X.nothrow) r.ptr s = .ok s (X.nothrow && mutable E e cl) := by
    cases hno : X.nothrow with
    | false => exact mayMutate_false
    | true => exact canMutate_eq hcl
  rw [bind_ok hb, hc]
  generalize els 0 N = xs at *
  have hk : idx ≤ xs.length := by omega
  by_cases hb : (X.nothrow && mutable E e cl) = true
  · rw [if_pos hb]
    rw [Bool.and_eq_true] at hb
    obtain ⟨hno, hm⟩ := hb
    obtain ⟨hd, ⟨k, hx⟩, hlen, hop⟩ := open_leaf he h hr hcl hm
    have hxl := congrArg List.length hx
    rw [hlen] at hxl
    simp only [List.length_append, List.length_map, List.length_replicate] at hxl
    have hclose : ∀ (cl' : Cell Dat T), cl'.data = .leaf → cl'.rc = cl.rc → cl'.tok = cl.tok → cl'.els = (xs.drop idx).map Slot.live ++ List.replicate (idx + k) .raw →
        Inv (sys c E u) (upd s.mem r.ptr (some cl')) O (⟨r.ptr, .node (.leaf (xs.drop idx)), e, false⟩ :: L) := by
      intro cl' a1 a2 a3 a4
      have hl' : cl'.els.length = 2 ^ c.BL := by
        rw [a4]
        simp
        omega
      exact VecHeap.retok (close_leaf (cl := cl') (hop.write List.mem_cons_self _) upd_self a1 ⟨idx + k, a4⟩ (fun hg => a2.trans (mutable_rc hg hm)) (fun _ => hl') (fun _ => hl') (fun hg => a3.trans (mutable_tok hg hm)))
        (fun _ => rfl) false (fun h => by cases h)
    by_cases h0 : idx = 0
    · subst h0
      rw [bind_ok (moveDown_self (hX hno) xs [] (List.replicate k .raw) 0 (xs.length - 0) s cl hcl (by simpa using hx) rfl rfl)]
      rw [bind_ok (destroyN_eq [] (xs.map Slot.live) (List.replicate k .raw) (xs.length - 0) 0 s cl hcl (by simpa using hx) (by simp) rfl (by simp))]
      refine ⟨rfl, hclose _ hd rfl rfl ?_, Kept.write hop _⟩
      simp
    · obtain ⟨mid', f1, f2, f3⟩ := moveDown_left (X := X) (p := r.ptr) (i := idx) (by omega) (xs.drop idx) [] ((xs.take idx).map Slot.live) (List.replicate k .raw) 0 (xs.length - idx) s cl hcl
        (by rw [List.nil_append, ← List.map_append, List.take_append_drop]; exact hx) rfl (by simp; omega) (by simp) (live_there _)
      rw [bind_ok f3]
      rw [bind_ok (destroyN_eq (s := { s with mem := upd s.mem r.ptr (some { cl with els := [] ++ (xs.drop idx).map Slot.live ++ mid' ++ List.replicate k .raw }) }) mid' ((xs.drop idx).map Slot.live) (List.replicate k .raw) (xs.length - idx) idx
        (c := { cl with els := [] ++ (xs.drop idx).map Slot.live ++ mid' ++ List.replicate k .raw }) upd_self (by simp) (by simp) f1.symm f2)]
      simp only [upd_upd]
      refine ⟨rfl, hclose _ hd rfl rfl ?_, Kept.write hop _⟩
      simp only [List.append_assoc, List.replicate_append_replicate]
  · rw [if_neg hb]
    have hx : Elems cl.els xs := by
      rw [hr] at hok
      exact (okD_leaf hok).2.2.1
    refine out_bind (copyLeafI_raw (own := some e) (t := e) hE h hcl hx rfl (by omega) (fun _ => rfl)) ?_
    rintro s1 q ⟨hi1, hk1⟩
    refine out_bind (out_mono (decV_out hB 0 O _ s1 r sh _ (by rw [hN]; exact hr) hf (hi1.permL (List.Perm.swap _ _ _))) (fun _ _ h => h) (fun _ h => h.elim)) ?_
    intro s2 _ hg
    exact ⟨rfl, VecHeap.retok hg.1 (fun _ => rfl) false (fun h => by cases h), (Kept.tail hk1).trans (Kept.tail hg.2)⟩

/-! ### Inner nodes of both kinds -/

/-- the table of an open node, if it has one -/
def Tab (E : Env Dat T) (tok : Nat) (rs : Option (List Nat)) (rel : Option Nat) (Lt : List (Ref (Val T))) : Prop :=
  rs = none ∧ rel = none ∧ Lt = [] ∨ ∃ sz tr, rs = some sz ∧ rel = some tr.ptr ∧ Lt = [tr] ∧ tr.val = .table sz ∧ (E.gc = true → tr.tok = tok)

theorem open_any (he : E.gc = true → u.live e) (h : Inv (sys c E u) m O (r :: L)) (hr : r.val = .node (.inner rs Ns)) (hc : m r.ptr = some cl) (hm : mutable E e cl = true) :
    ∃ rel Lt Lo, OpG c E u m O (Lt ++ L) r.ptr cl (2 ^ c.B) rel Lo Ns ∧ Tab E cl.tok rs rel Lt := by
  cases rs with
  | none =>
    obtain ⟨cap, Lo, hop, rfl⟩ := open_inner he h hr hc hm
    exact ⟨none, [], Lo, OpG.of hop, .inl ⟨rfl, rfl, rfl⟩⟩
  | some sz =>
    obtain ⟨cap, tr, Lo, hop, rfl, htr, htt⟩ := open_innerR he h hr hc hm
    exact ⟨some tr.ptr, [tr], Lo, hop, .inr ⟨sz, tr, rfl, rfl, rfl, htr, htt⟩⟩

theorem gone_any {Lt : List (Ref (Val T))} (h : OpG c E u m O (Lt ++ L) p cl cap rel Lo Ns) (hT : Tab E cl.tok rs rel Lt) (hg : Gone c E u (p :: O) (Lo ++ (Lt ++ L)) m m') {b : Bool} (ht : E.gc = true → cl.tok = t) :
    Gone c E u O (⟨p, .node (.inner rs Ns), t, b⟩ :: L) m m' := by
  rcases hT with ⟨rfl, rfl, rfl⟩ | ⟨sz, tr, rfl, rfl, rfl, htr, htt⟩
  · exact Op.gone (L := L) h.op hg ht
  · exact OpG.gone (L := L) h htr htt hg ht

theorem decFirst_any (hB : 0 < c.B) {sh : RShp} (hf : RFits c (l + 1) sh (.inner rs Ns)) (hn : n < Ns.length) {Lc Lk : List (Ref (Val T))}
    (hc : s.mem p = some cl) (hd : cl.data = .inner cap rel ks) (hks : ks = Lc.map Ref.ptr ++ Lk.map Ref.ptr) (hv : Lc.map Ref.val = (Ns.take n).map Val.node)
    (h : Inv (sys c E u) s.mem O (Lc ++ L)) :
    Out (decFirst c E l p sh n s) (fun s' _ => Gone c E u O L s.mem s'.mem) (fun _ => False) := by
  cases sh with
  | reg sh =>
    obtain ⟨ds, e, sf, sl, h0, hk⟩ := Fits.kids hB (show Fits c (l + 1) sh _ from hf)
    cases h0
    exact decFirstReg_out hB (show Fits c (l + 1) sh _ from hf) hn hc hd hks hv h
  | rel i sz =>
    obtain ⟨Ns', h0, rfl, h1, h2, h3, h4⟩ := hf.rel
    cases h0
    exact decFirstR_out hB h3 h4 (Nat.le_of_lt hn) hc hd hks hv h

/-- `dec_left_visitor` on a node that may be changed -/
theorem decLeft_open (hB : 0 < c.B) {sh : RShp} (hf : RFits c (l + 1) sh (.inner rs Ns)) (hn : n < Ns.length) {Lc Lk Lt : List (Ref (Val T))} (hc : s.mem p = some cl)
    (hd : cl.data = .inner (2 ^ c.B) rel ks) (hels : cl.els = []) (hrc : E.gc = false → cl.rc = 1) (hT : Tab E cl.tok rs rel Lt) (hks : ks = Lc.map Ref.ptr ++ Lk.map Ref.ptr)
    (hv : Lc.map Ref.val = (Ns.take n).map Val.node) (h : Inv (sys c E u) s.mem (p :: O) (Lc ++ (Lt ++ L))) :
    Out (decLeft c E l p sh n s) (fun s' _ => Gone c E u O L s.mem s'.mem) (fun _ => False) := by
  unfold decLeft
  by_cases hg : E.gc = true
  · rw [bind_ok (dec_gc hg hc)]
    exact ⟨drop_gc (Ld := Lt) hg (drop_gc hg (h.forget hg)), .refl⟩
  · have hg : E.gc = false := Bool.eq_false_iff.mpr hg
    rw [bind_ok (dec_rc hg hc (by rw [hrc hg]; omega)), if_pos (by rw [hrc hg]; rfl)]
    have hk0 : Kept (sys c E u) O L s.mem (upd s.mem p (some { cl with rc := cl.rc - 1 })) :=
      (Kept.write h _).mono (fun x hx => List.mem_append_right _ (List.mem_append_right _ hx)) (fun _ h => h)
    refine out_bind (decFirst_any (s := { s with mem := upd s.mem p (some { cl with rc := cl.rc - 1 }) }) (cl := { cl with rc := cl.rc - 1 }) hB hf hn upd_self hd hks hv (h.write List.mem_cons_self _)) ?_
    intro s2 _ hg2
    have hc2 : s2.mem p = some { cl with rc := cl.rc - 1 } := (hg2.2.2 p List.mem_cons_self).trans upd_self
    have hk2 : Kept (sys c E u) O L _ s2.mem := (Kept.open hg2.2).mono (fun x hx => List.mem_append_right _ hx) (fun _ h => h)
    have hreg : ∀ k, Lt = [] → Out (delInner c E p k s2) (fun s' _ => Gone c E u O L s.mem s'.mem) (fun _ => False) := by
      rintro k rfl
      refine out_mono (delInner_open (L := L) hg2.1 hc2 hd hels ?_) ?_ (fun _ h => h)
      · rw [hg]
        simp [innerRoom_rc hg]
      · intro s3 _ hg3
        exact Gone.trans (hk0.trans hk2) hg3
    cases sh with
    | reg sh =>
      obtain ⟨ds, e, sf, sl, h0, hk⟩ := Fits.kids hB (show Fits c (l + 1) sh _ from hf)
      cases h0
      rcases hT with ⟨_, _, rfl⟩ | ⟨sz, tr, h0, _⟩
      · exact hreg _ rfl
      · cases h0
    | rel i sz =>
      obtain ⟨Ns', h0, rfl, h1, h2, h3, h4⟩ := hf.rel
      cases h0
      rcases hT with ⟨h0, _⟩ | ⟨sz, tr, _, rfl, rfl, htr, _⟩
      · cases h0
      · refine out_mono (delInnerR_rc hg hg2.1 hc2 hd hels htr) ?_ (fun _ h => h)
        intro s3 _ hg3
        exact Gone.trans (hk0.trans hk2) hg3

/-- a node that may be changed gets a table of its own -/
theorem sliceTarget_out (hB : 0 < c.B) (hE : E.Fresh) (he : E.gc = true → u.live e) {sh : RShp} {Lt : List (Ref (Val T))} (hf : RFits c (l + 1) sh (.inner rs Ns)) (hT : Tab E cl.tok rs rel Lt)
    (h : OpG c E u s.mem O (Lt ++ L) p cl (2 ^ c.B) rel Lo Ns) :
    Out (sliceTarget c E (some e) true p sh n s) (fun s' q => q = p ∧ ∃ (t : Nat) (cl' ct : Cell Dat T) (ss : List Nat), OpG c E u s'.mem (t :: O) L p cl' (2 ^ c.B) (some t) Lo Ns ∧ Tb c E s'.mem t ct (2 ^ c.B) ss ∧
      (u.live ct.tok → ct.tok = e) ∧ cl'.tok = cl.tok ∧ (∀ sz, rs = some sz → ss = sz) ∧ Kept (sys c E u) O L s.mem s'.mem) (fun s' => s'.mem = s.mem) := by
  unfold sliceTarget
  rw [if_pos rfl]
  cases sh with
  | reg sh =>
    obtain ⟨ds, e', sf, sl, h0, hk⟩ := Fits.kids hB (show Fits c (l + 1) sh _ from hf)
    cases h0
    rcases hT with ⟨_, rfl, rfl⟩ | ⟨sz, tr, h0, _⟩
    · refine out_bind (out_mono (newTableK_out (k := .alloc) hE h.inv) (fun _ _ h => h) (fun _ h => h.1)) ?_
      rintro s1 t ⟨hn, hm⟩
      obtain ⟨ct, hct⟩ : ∃ x : Cell Dat T, x = ⟨1, 0, [], .table (2 ^ c.B) []⟩ := ⟨_, rfl⟩
      rw [← hct] at hm
      have hpt : p ≠ t := by
        rintro rfl
        rw [h.cell] at hn
        cases hn
      have hc1 : s1.mem p = some cl := by rw [hm, upd_ne hpt]; exact h.cell
      rw [bind_ok (setTable_eq (r' := some t) hc1 h.data)]
      have hi1 := (h.inv.alloc hn ct).perm (List.Perm.swap _ _ _) (List.Perm.refl _)
      rw [← hm] at hi1
      refine ⟨rfl, t, _, ct, [], h.put (some t) hi1 h.val h.tok h.len, ?_, ?_, rfl, (fun _ h => by cases h), ?_⟩
      · rw [hm, hct]
        exact (newTbK (c := c) (E := E) (m := s.mem) (t := t) 0).mem (upd_ne (Ne.symm hpt))
      · intro hl
        rw [hct] at hl
        exact absurd hl u.live0
      · refine Kept.trans (m' := s1.mem) ?_ ?_
        · rw [hm]
          exact (Kept.new h.inv hn _).mono (fun x hx => List.mem_append_right _ hx) (fun _ h => List.mem_cons_of_mem _ h)
        · exact (Kept.write hi1 (some { cl with data := .inner (2 ^ c.B) (some t) (Lo.map Ref.ptr) })).mono (fun x hx => List.mem_append_right _ hx) (fun _ h => List.mem_cons_of_mem _ h)
    · cases h0
  | rel i sz =>
    obtain ⟨Ns', h0, rfl, h1, h2, h3, h4⟩ := hf.rel
    cases h0
    rcases hT with ⟨h0, _⟩ | ⟨sz, tr, h0, rfl, rfl, htr, htt⟩
    · cases h0
    · cases h0
      refine out_bind (out_mono (mutTable_out (k := .alloc) (n := sz.length) hE he h htr (Nat.le_refl _) (by rw [h4, psums_length, List.length_map]; exact h2)) (fun _ _ h => h) (fun _ h => h.1)) ?_
      rintro s1 t ⟨cl', ct, ss, a1, a2, a3, a4, a5, a6⟩
      refine ⟨rfl, t, cl', ct, ss, a1, a2, a4, a5, ?_, a6⟩
      rintro sz' h0
      cases h0
      rcases a3 with rfl | rfl
      · rfl
      · rw [List.take_length]

/-- the rest of the slice in place -/
theorem sliceFillMut_out (hB : 0 < c.B) {sh : RShp} {s0 : Nat} {A B : List (Ref (Val T))} {y : Ref (Val T)} (hf : RFits c (l + 1) sh (.inner rs Ns)) (hcnt : sh.count c = Ns.length) (hk : k < Ns.length)
    (hss : sh.copySizes (k + 1) (Ns.length - k - 1) s0 = some ss) (hsl : ss.length = Ns.length - (k + 1)) {sz0 : List Nat} (h : OpG c E u m (t :: O) L p cl (2 ^ c.B) (some t) (A ++ y :: B) Ns) (hA : A.length = k)
    (hc : s.mem p = some cl) (hi : Inv (sys c E u) s.mem (p :: t :: O) (⟨q, .node Y, e, false⟩ :: (A ++ B ++ L)))
    (hT : Tb c E s.mem t ct (2 ^ c.B) sz0) (hte : u.live ct.tok → ct.tok = e) (htok : E.gc = true → cl.tok = e) :
    Out (sliceFill c E mu true l p p sh k s0 q s) (fun s' r => r = (sh.shift, p) ∧ Inv (sys c E u) s'.mem O (⟨p, .node (.inner (some (s0 :: ss)) (Y :: Ns.drop (k + 1))), e, false⟩ :: L) ∧
      Kept (sys c E u) O L s.mem s'.mem) (fun _ => False) := by
  have hlo := h.length
  have hl2 := h.len
  simp only [List.length_append, List.length_cons] at hlo hl2
  have hdat : cl.data = .inner (2 ^ c.B) (some t) (A.map Ref.ptr ++ (y :: B).map Ref.ptr) := by rw [h.data, List.map_append]
  have hAv : A.map Ref.val = (Ns.take k).map Val.node := by
    have := congrArg (List.take k) h.val
    rw [← List.map_take, ← List.map_take, List.take_left' hA] at this
    exact this
  have hBv : B.map Ref.val = (Ns.drop (k + 1)).map Val.node := by
    have := congrArg (List.drop (k + 1)) h.val
    rw [← List.map_drop, ← List.map_drop, show A ++ y :: B = (A ++ [y]) ++ B by simp, List.drop_left' (by simp [hA])] at this
    exact this
  unfold sliceFill
  simp only [if_true]
  have hi' : Inv (sys c E u) s.mem (p :: t :: O) (A ++ (⟨q, .node Y, e, false⟩ :: (B ++ L))) := hi.permL (by
    rw [List.append_assoc]
    exact List.perm_middle.symm)
  refine out_bind (decFirst_any (O := p :: t :: O) hB hf hk hc hdat rfl hAv hi') ?_
  intro s1 _ hg
  have hc1 := (hg.2.2 p List.mem_cons_self).trans hc
  have hT1 := hT.mem (hg.2.2 t (List.mem_cons_of_mem _ List.mem_cons_self))
  rw [bind_ok (theTable_eq hc1 h.data), hcnt, bind_ok (liftO_eq hss)]
  have hlt : (s0 :: ss).length ≤ 2 ^ c.B := by rw [List.length_cons]; omega
  rw [bind_ok (setSizes_eq hT1.cell hT1.data hlt)]
  have hne := h.ne
  have hi2 := hg.1.write (a := t) (List.mem_cons_of_mem _ List.mem_cons_self) { ct with data := .table (2 ^ c.B) (s0 :: ss) }
  have hT2 := hT1.set (m' := s1.mem) hlt
  have hk2 : Kept (sys c E u) O L s1.mem (upd s1.mem t (some { ct with data := .table (2 ^ c.B) (s0 :: ss) })) :=
    (Kept.open (Kept.write (hg.1.perm (List.Perm.swap _ _ _) (List.Perm.refl _)) _)).mono (fun x hx => by simp [hx]) (fun _ h => h)
  have hc2 : upd s1.mem t (some { ct with data := .table (2 ^ c.B) (s0 :: ss) }) p = some cl := by rw [upd_ne hne]; exact hc1
  generalize upd s1.mem t (some { ct with data := .table (2 ^ c.B) (s0 :: ss) }) = m2 at hi2 hT2 hk2 hc2
  rw [bind_ok (kids_eq (s := { s1 with mem := m2 }) hc2 hdat), bind_ok (liftO_eq (b := B.map Ref.ptr) (by
    rw [slice_ok (by omega) (by simp; omega)]
    rw [show A.map Ref.ptr ++ (y :: B).map Ref.ptr = (A ++ [y]).map Ref.ptr ++ B.map Ref.ptr by simp, List.drop_left' (by simp [hA]), List.take_of_length_le (by simp; omega)]))]
  rw [bind_ok (setKids_eq (s := { s1 with mem := m2 }) hc2 hdat (by simp; omega))]
  have hop3 := OpG.put (m' := m2) (O' := t :: O) (L' := L) (Lo' := ⟨q, .node Y, e, false⟩ :: B) (Ns' := Y :: Ns.drop (k + 1)) h (some t) hi2 (by simp [hBv]) (by
    intro hgc z hz
    rcases List.mem_cons.mp hz with rfl | hz
    · exact (htok hgc).symm
    · exact h.tok hgc z (by simp [hz])) (by simp; omega)
  have hk3 := Kept.write hi2 (some { cl with data := .inner (2 ^ c.B) (some t) ((⟨q, .node Y, e, false⟩ :: B : List (Ref (Val T))).map Ref.ptr) })
  have hcl := OpG.closeT hop3 (hT2.mem (upd_ne (Ne.symm hne))) (k := e) (fun hl => (hte hl).trans (htok (live_gc hl)).symm) htok
  refine ⟨rfl, VecHeap.retok hcl (fun _ => rfl) false (fun h => by cases h), ?_⟩
  refine Kept.trans ((hg.2.mono (fun x hx => ?_) (fun _ h => List.mem_cons_of_mem _ (List.mem_cons_of_mem _ h)))) (hk2.trans ((Kept.open hk3).mono (fun x hx => ?_) (fun _ h => h)))
  · simp [hx]
  · simp [hx]

/-- the handlers restore the node -/
theorem sliceLeftCatch_out (hB : 0 < c.B) {sh : RShp} (hf : RFits c (l + 1) sh (.inner rs Ns)) (h : OpG c E u s.mem (t :: O) L p cl (2 ^ c.B) (some t) Lo Ns)
    (hT : Tb c E s.mem t ct (2 ^ c.B) ss) (hte : u.live ct.tok → ct.tok = cl.tok) (hs : ∀ sz, rs = some sz → ss = sz) (ht : E.gc = true → cl.tok = j) {b : Bool} :
    Out (sliceLeftCatch c E own true p sh n s) (fun s' _ => Inv (sys c E u) s'.mem O (⟨p, .node (.inner rs Ns), j, b⟩ :: L) ∧ Kept (sys c E u) O L s.mem s'.mem) (fun _ => False) := by
  unfold sliceLeftCatch
  rw [if_pos rfl]
  cases sh with
  | reg sh =>
    obtain ⟨ds, e', sf, sl, h0, hk⟩ := Fits.kids hB (show Fits c (l + 1) sh _ from hf)
    cases h0
    simp only
    rw [bind_ok (theTable_eq h.cell h.data)]
    refine out_bind (dealloc_open (n := 0) (O := p :: O) (h.inv.perm (List.Perm.swap _ _ _) (List.Perm.refl _)) hT.cell hT.els (by rw [hT.data]; rfl)) ?_
    intro s1 _ hg
    have hc1 := (hg.2.2 p List.mem_cons_self).trans h.cell
    rw [setTable_eq (r' := none) hc1 h.data]
    have hop := OpG.put (m' := s1.mem) (O' := O) (L' := L) h none hg.1 h.val h.tok h.len
    refine ⟨VecHeap.retok (hop.op.close (t := j) ht) (fun _ => rfl) b (fun _ => rfl), ?_⟩
    exact ((Kept.open hg.2).mono (fun x hx => List.mem_append_right _ hx) (fun _ h => h)).trans ((Kept.write hg.1 _).mono (fun x hx => List.mem_append_right _ hx) (fun _ h => h))
  | rel i sz =>
    obtain ⟨Ns', h0, rfl, h1, h2, h3, h4⟩ := hf.rel
    cases h0
    have := hs sz rfl
    subst this
    exact ⟨VecHeap.retok (OpG.closeT h hT hte ht) (fun _ => rfl) b (fun _ => rfl), .refl⟩

/-! ### The visitor -/

/-- `slice_left_mut_visitor` takes the reference to the node -/
theorem sliceLeftMut_out (hB : 0 < c.B) (hE : E.Fresh) (he : E.gc = true → u.live e) (hX : X.Ok) : ∀ (l : Nat) (O : List Nat) (L : List (Ref (Val T))) (collapse : Bool) (s : St Dat T) (r : Ref (Val T)) (sh : RShp) (N : Node T) (idx : Nat)
    (res : Nat × Node T), RFits c l sh N → SubPos (sh.pos N) → (els l N).length ≤ 2 ^ 32 → (∀ l', l' + 1 ≤ l → c.BL + c.B * l' < 32) → idx < (els l N).length → Rrb.sliceLeft c collapse l (sh.pos N) idx = some res →
    r.val = .node N → (E.gc = true → r.tok = e) → Inv (sys c E u) s.mem O (r :: L) →
    Out (sliceLeftR c E X (some e) true collapse l r.ptr sh idx s) (fun s' q => q.1 = res.1 ∧ Inv (sys c E u) s'.mem O (⟨q.2, .node res.2, e, false⟩ :: L) ∧ Kept (sys c E u) O L s.mem s'.mem)
      (fun s' => Inv (sys c E u) s'.mem O (r :: L) ∧ Kept (sys c E u) O L s.mem s'.mem)
  | 0, O, L, collapse, s, r, .rel i sz, N, idx, res, hf, hsub, h32, hs, hi, hv, hr, hrt, h => hf.rel0.elim
  | 0, O, L, collapse, s, r, .reg sh, N, idx, res, hf, hsub, h32, hs, hi, hv, hr, hrt, h => by
    obtain ⟨_, _, hleaf, _⟩ := Fits.leaf hf
    unfold sliceLeftR
    rw [if_pos hleaf]
    rw [sliceLeft_coll] at hv
    exact out_mono (sliceLeafMut_out hB hE he hX hf hi hv hr h) (fun _ _ h => h) (fun _ h => ⟨h.1, Kept.tail h.2⟩)
  | l + 1, O, L, collapse, s, r, sh, N, idx, res, hf, hsub, h32, hs, hi, hv, hr, hrt, h => by
    obtain ⟨cl, _, hc, _⟩ := h.look (List.mem_cons_self (a := r))
    have hm : mayMutate E (some e) true r.ptr s = .ok s (mutable E e cl) := canMutate_eq hc
    by_cases hmt : mutable E e cl = true
    · obtain ⟨rs, Ns, k, x, sh', rfl, h1, h2, h3, h4, h5, h6, h7, h8, h9, h10, h11, h12, h13, h14⟩ := hf.left hB hsub h32 (hs l (Nat.le_refl _)) hi hv
      have hw := h2 x (List.mem_of_getElem? h5)
      have hlt : k < Ns.length := (List.getElem?_eq_some_iff.mp h5).1
      have hx32 : (els l x).length ≤ 2 ^ 32 := by
        refine Nat.le_trans ?_ h32
        have := before_succ l Ns k x h5
        have := before_mono l Ns (show k + 1 ≤ Ns.length by omega)
        rw [before_all l Ns Ns.length (Nat.le_refl _)] at this
        show _ ≤ (Ns.flatMap (els l)).length
        omega
      unfold sliceLeftR
      rw [bind_ok (liftO_eq h8), bind_ok hm, bind_ok (liftO_eq h9), bind_ok (liftO_eq h10), h3, h4, hmt]
      obtain ⟨rel, Lt, Lo, hop, hTab⟩ := open_any he h hr hc hmt
      obtain ⟨y, hy, hyv⟩ := nth_ref hop.val h5
      obtain ⟨A, B, rfl, hA⟩ := split_at hy
      have hr' : r = ⟨r.ptr, .node (.inner rs Ns), r.tok, r.uniq⟩ := by rw [← hr]
      have htok : E.gc = true → cl.tok = e := fun hg => mutable_tok hg hmt
      have hytok : E.gc = true → y.tok = e := fun hg => (hop.tok hg y (by simp)).trans (htok hg)
      have hAv : A.map Ref.val = (Ns.take k).map Val.node := by
        have := congrArg (List.take k) hop.val
        rw [← List.map_take, ← List.map_take, List.take_left' hA] at this
        exact this
      have hlo := hop.length
      simp only [List.length_append, List.length_cons] at hlo
      rcases h14 with ⟨hcol, hres⟩ | ⟨hcol, s1, n0, ss, hres, hss, hsl, rfl⟩
      · rw [if_pos hcol]
        have hyd := hop.inv.den (r := y) (List.mem_append_left _ (List.mem_of_getElem? hy))
        rw [hyv] at hyd
        rw [bind_ok (subTowards_eq hB h11 hc hop.data (by rw [List.getElem?_map, hy]; rfl) h5 hw hyd)]
        refine out_bind (out_mono (sliceLeftMut_out hB hE he hX l (r.ptr :: O) (A ++ B ++ (Lt ++ L)) collapse s y sh' x _ res h12 h13 hx32 (fun l' hl => hs l' (by omega)) h7 hres hyv hytok (hop.inv.permL (perm_child A B y (Lt ++ L)))) (fun _ _ h => h) ?_) ?_
        · rintro s' ⟨hi', hk'⟩
          have hop' := hop.mem (L' := Lt ++ L) (hi'.permL (perm_child A B y (Lt ++ L)).symm) (hk'.2 _ List.mem_cons_self)
          have := gone_any hop' hTab ⟨hop'.inv, .refl⟩ (t := r.tok) (b := r.uniq) (fun hg => (htok hg).trans (hrt hg).symm)
          rw [← hr'] at this
          exact ⟨this.1, hk'.mono (fun z hz => by simp [hz]) (fun _ h => List.mem_cons_of_mem _ h)⟩
        · rintro s' q ⟨e1, hi', hk'⟩
          have hB0 : B = [] := List.eq_nil_of_length_eq_zero (by omega)
          subst hB0
          simp only [if_true]
          have hi2 : Inv (sys c E u) s'.mem (r.ptr :: O) (A ++ (Lt ++ (⟨q.2, .node res.2, e, false⟩ :: L))) := hi'.permL (by
            rw [List.append_nil, ← List.append_assoc, ← List.append_assoc]
            exact List.perm_middle.symm)
          refine out_bind (out_mono (decLeft_open (L := ⟨q.2, .node res.2, e, false⟩ :: L) (Lk := [y]) hB hf hlt ((hk'.2 _ List.mem_cons_self).trans hc) hop.data hop.els hop.rc hTab (by simp) hAv hi2) (fun _ _ h => h) (fun _ h => h.elim)) ?_
          intro s'' _ hg
          exact ⟨e1, hg.1, (hk'.mono (fun z hz => by simp [hz]) (fun _ h => List.mem_cons_of_mem _ h)).trans (Kept.tail hg.2)⟩
      · rw [if_neg hcol]
        refine out_bind (out_mono (sliceTarget_out hB hE he hf hTab hop) (fun _ _ h => h) ?_) ?_
        · intro s' he'
          rw [he']
          exact ⟨h, .refl⟩
        · rintro s2 _ ⟨rfl, t, cl2, ct, sz, hop2, hT2, hte, htk2, hsz, hk2⟩
          have htok2 : E.gc = true → cl2.tok = e := fun hg => htk2.trans (htok hg)
          have hyd := hop2.inv.den (r := y) (List.mem_append_left _ (List.mem_of_getElem? hy))
          rw [hyv] at hyd
          have hih := sliceLeftMut_out hB hE he hX l (r.ptr :: t :: O) (A ++ B ++ L) false s2 y sh' x _ (s1, n0) h12 h13 hx32 (fun l' hl => hs l' (by omega)) h7 hres hyv hytok (hop2.inv.permL (perm_child A B y L))
          refine out_guard (E' := fun s' => Inv (sys c E u) s'.mem (r.ptr :: t :: O) (y :: (A ++ B ++ L)) ∧ Kept (sys c E u) (r.ptr :: t :: O) (A ++ B ++ L) s2.mem s'.mem) ?_ ?_
          · rw [bind_ok (subTowards_eq hB h11 hop2.cell hop2.data (by rw [List.getElem?_map, hy]; rfl) h5 hw hyd)]
            refine out_bind hih ?_
            rintro s3 q ⟨_, hi3, hk3⟩
            refine out_mono (sliceFillMut_out (s := s3) (e := e) hB hf h3 hlt hss hsl hop2 hA ((hk3.2 _ List.mem_cons_self).trans hop2.cell) hi3 (hT2.mem (hk3.2 t (List.mem_cons_of_mem _ List.mem_cons_self))) hte htok2) ?_ (fun _ h => h.elim)
            rintro s4 q' ⟨rfl, hi4, hk4⟩
            exact ⟨h4, hi4, (hk2.trans (hk3.mono (fun z hz => by simp [hz]) (fun _ h => List.mem_cons_of_mem _ (List.mem_cons_of_mem _ h)))).trans hk4⟩
          · rintro s3 ⟨hi3, hk3⟩
            have hop3 := hop2.mem (O' := t :: O) (L' := L) (hi3.permL (perm_child A B y L).symm) (hk3.2 _ List.mem_cons_self)
            refine out_mono (sliceLeftCatch_out (j := r.tok) (b := r.uniq) hB hf hop3 (hT2.mem (hk3.2 t (List.mem_cons_of_mem _ List.mem_cons_self))) (fun hl => (hte hl).trans (htok2 (live_gc hl)).symm) hsz (fun hg => (htok2 hg).trans (hrt hg).symm)) ?_ (fun _ h => h.elim)
            rintro s4 _ ⟨hi4, hk4⟩
            rw [← hr'] at hi4
            exact ⟨hi4, (hk2.trans (hk3.mono (fun z hz => by simp [hz]) (fun _ h => List.mem_cons_of_mem _ (List.mem_cons_of_mem _ h)))).trans hk4⟩
    · have hmt := Bool.eq_false_iff.mpr hmt
      rw [hmt] at hm
      have ha := at_of_shared h (List.mem_cons_self (a := r)) hc hmt hrt
      rw [hr] at ha
      refine out_mono (sliceLeftShared_out (own := some e) (t := e) hB hE (fun _ => rfl) hf hsub h32 (hs l (Nat.le_refl _)) hi hv h ha (.inr ⟨rfl, r, rfl, hr, rfl, reach_of_shared h hc hmt⟩) hm ?_) (fun _ _ h => h) (fun _ h => ⟨h.1, Kept.tail h.2⟩)
      intro O' s' col x sh' q j v a1 a2 a3 a4 a5 a6 a7 a8
      exact sliceLeftNew_out hB hE (fun _ => rfl) l O' col s' q sh' x j v a1 a2 a3 (fun l' hl => hs l' (by omega)) a4 a5 a6 a7

end
end FlexHeap
