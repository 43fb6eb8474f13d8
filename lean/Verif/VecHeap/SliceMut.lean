import Verif.VecHeap.Mut

/-!
# Slices that change nodes
-/

namespace VecHeap
open Mm Rrb

variable {T : Type} {c : Cfg} {E : Env Dat T} {u : Toks E.gc} {O : List Nat} {L : List (Ref (Val T))}

section
variable {s : St Dat T} {m m' : Mem Dat T} {p q n i l e t : Nat} {xs : List T} {N : Node T} {Ns : List (Node T)} {ks : List Nat} {cl : Cell Dat T} {r : Ref (Val T)} {sh : Shp} {cap : Nat}

theorem drop_gc (hg : E.gc = true) : ∀ {Ld : List (Ref (Val T))}, Inv (sys c E u) m O (Ld ++ L) → Inv (sys c E u) m O L
  | [], h => h
  | x :: Ld, h => by
    obtain ⟨cl, _, hc, _⟩ := h.look (r := x) List.mem_cons_self
    have := Inv.drop (L := Ld ++ L) h hc (fun hf => by rw [show (sys c E u).gc = E.gc from rfl, hg] at hf; cases hf)
    rw [show (sys c E u).gc = E.gc from rfl, hg, if_pos rfl] at this
    exact drop_gc hg this

/-- `dec_right_visitor` on a node that may be changed -/
theorem decRight_open (hB : 0 < c.B) (hf : Fits c (l + 1) sh (.inner none Ns)) (hn0 : 0 < n) (hn : n ≤ Ns.length) {Lk Ld : List (Ref (Val T))} (hc : s.mem p = some cl) (hd : cl.data = .inner cap none ks) (hels : cl.els = [])
    (hrc : E.gc = false → cl.rc = 1) (hcap : E.gc = false → cap = 2 ^ c.B) (hks : ks = Lk.map Ref.ptr ++ Ld.map Ref.ptr) (hlk : Lk.length = n) (hv : Ld.map Ref.val = (Ns.drop n).map Val.node)
    (h : Inv (sys c E u) s.mem (p :: O) (Ld ++ L)) : Out (decRight c E l p sh n s) (fun s' _ => Gone c E u O L s.mem s'.mem) (fun _ => False) := by
  unfold decRight
  by_cases hg : E.gc = true
  · rw [bind_ok (dec_gc hg hc)]
    exact ⟨drop_gc hg (h.forget hg), .refl⟩
  · have hg : E.gc = false := Bool.eq_false_iff.mpr hg
    rw [bind_ok (dec_rc hg hc (by rw [hrc hg]; omega)), if_pos (by rw [hrc hg]; rfl)]
    have hk0 : Kept (sys c E u) O L s.mem (upd s.mem p (some { cl with rc := cl.rc - 1 })) := (Kept.write h _).mono (fun x hx => List.mem_append_right _ hx) (fun _ h => h)
    refine out_bind (decRest_out (s := { s with mem := upd s.mem p (some { cl with rc := cl.rc - 1 }) }) (cl := { cl with rc := cl.rc - 1 }) hB hf hn0 hn List.mem_cons_self upd_self hd hks hlk hv (h.write List.mem_cons_self _)) ?_
    intro s2 _ hg2
    have hc2 : s2.mem p = some { cl with rc := cl.rc - 1 } := (hg2.2.2 p List.mem_cons_self).trans upd_self
    refine out_mono (delInner_open hg2.1 hc2 hd hels ?_) ?_ (fun _ h => h)
    · rw [hg, hcap hg]
      simp [innerRoom_rc hg]
    · intro s3 _ hg3
      exact Gone.trans (hk0.trans (Kept.open hg2.2)) hg3

theorem cutKids_eq {rel : Option Nat} (hc : s.mem p = some cl) (hd : cl.data = .inner cap rel ks) (hl : ks.length ≤ cap) :
    cutKids p n s = .ok { s with mem := upd s.mem p (some { cl with data := .inner cap rel (ks.take n) }) } () := by
  unfold cutKids
  rw [bind_ok (kids_eq hc hd), setKids_eq hc hd (by simp; omega)]

theorem perm_rest {α : Type} (t : α) (A B L : List α) : ([t] ++ (A ++ B ++ L)).Perm (B ++ (t :: (A ++ L))) := by
  refine .trans ?_ List.perm_middle.symm
  simp only [List.singleton_append, List.append_assoc]
  exact (List.perm_append_comm_assoc A B L).cons t

theorem perm_two {α : Type} (t a : α) (B L : List α) : ([t] ++ ([a] ++ B ++ L)).Perm (B ++ (a :: [t] ++ L)) := by
  refine (perm_rest t [a] B L).trans ?_
  exact ((List.Perm.swap _ _ _).append_left B)

theorem perm_rest2 {α : Type} (a t : α) (A B L : List α) : ([a, t] ++ (A ++ B ++ L)).Perm (B ++ (a :: t :: (A ++ L))) :=
  ((perm_rest t A B L).cons a).trans List.perm_middle.symm

theorem perm_rest3 {α : Type} (a t : α) (A L : List α) : (a :: t :: (A ++ L)).Perm ((A ++ [a]) ++ t :: L) := by
  rw [List.append_assoc]
  exact (List.perm_middle.symm.cons a).trans List.perm_middle.symm

/-- `slice_right_mut_visitor` takes the reference to the node -/
theorem sliceMut_out (hB : 0 < c.B) (hE : E.Fresh) (he : E.gc = true → u.live e) : ∀ (l : Nat) (collapse : Bool) (O : List Nat) (L : List (Ref (Val T))) (s : St Dat T) (r : Ref (Val T)) (sh : Shp) (N : Node T) (idx : Nat)
    (res : Nat × Option (Node T) × Nat × Node T), Fits c l sh N → idx % Rrb.cap c l < (els l N).length → Rrb.sliceRight c collapse l (sh.pos N) idx = some res → r.val = .node N → (E.gc = true → r.tok = e) →
    Inv (sys c E u) s.mem O (r :: L) →
    Out (sliceRight c E (some e) true collapse l r.ptr sh idx s) (fun s' rr => ∃ Lr, Cut e rr res Lr ∧ Inv (sys c E u) s'.mem O (Lr ++ L) ∧ Kept (sys c E u) O L s.mem s'.mem)
      (fun s' => Gone c E u O (r :: L) s.mem s'.mem)
  | 0, collapse, O, L, s, r, sh, N, idx, res, hf, hi, hv, hr, hrt, h => by
    obtain ⟨xs, i, rfl, h1, h2, h3, h4, h5, rfl⟩ := hf.sliceLeaf hv
    obtain ⟨cl, _, hc, _⟩ := h.look (List.mem_cons_self (a := r))
    unfold sliceRight
    have hm : mayMutate E (some e) true r.ptr s = .ok s (mutable E e cl) := canMutate_eq hc
    rw [if_pos h1, bind_ok (liftO_eq h4), bind_ok hm, h2]
    have hr' : r = ⟨r.ptr, .node (.leaf xs), r.tok, r.uniq⟩ := by rw [← hr]
    by_cases hl : i + 1 = xs.length
    · rw [if_pos hl]
      refine ⟨_, ⟨rfl, rfl, .inl ⟨rfl, rfl, rfl⟩⟩, ?_, .refl⟩
      rw [hl, List.take_length]
      rw [hr'] at h
      exact VecHeap.retok h hrt false (fun h => by cases h)
    · rw [if_neg hl]
      by_cases hm : mutable E e cl = true
      · rw [if_pos hm]
        obtain ⟨hd, ⟨k, hx⟩, hlen, hop⟩ := open_leaf he h hr hc hm
        rw [bind_ok (destroyN_eq ((xs.drop (i + 1)).map Slot.live) ((xs.take (i + 1)).map Slot.live) (List.replicate k .raw) (i + 1) (xs.length - (i + 1)) s cl hc
          (by rw [← List.map_append, List.take_append_drop]; exact hx) (by simp; omega) (by simp) (live_there _))]
        refine ⟨_, ⟨rfl, rfl, .inl ⟨rfl, rfl, rfl⟩⟩, ?_, Kept.write hop _⟩
        have hlen' : ((xs.take (i + 1)).map Slot.live ++ List.replicate (xs.length - (i + 1)) Slot.raw ++ List.replicate k Slot.raw).length = 2 ^ c.BL := by
          rw [← hlen, hx]
          simp
          omega
        refine VecHeap.retok (close_leaf (cl := { cl with els := (xs.take (i + 1)).map Slot.live ++ List.replicate (xs.length - (i + 1)) Slot.raw ++ List.replicate k Slot.raw })
          (hop.write List.mem_cons_self _) upd_self hd ⟨xs.length - (i + 1) + k, ?_⟩ (fun hg => mutable_rc hg hm) (fun _ => hlen') (fun _ => hlen') (fun hg => mutable_tok hg hm)) (fun _ => rfl) false (fun h => by cases h)
        simp only [List.append_assoc, List.replicate_append_replicate]
      · rw [if_neg hm]
        have hm := Bool.eq_false_iff.mpr hm
        have ha := at_of_shared h (List.mem_cons_self (a := r)) hc hm hrt
        rw [hr] at ha
        refine out_bind (copyLeaf_out (own := some e) hE h ha (n := i + 1) h5 (by omega) (fun _ => rfl)) ?_
        rintro s1 q ⟨hi1, hk1⟩
        refine out_bind (out_mono (decV_out hB 0 O _ s1 r sh _ hr hf (hi1.permL (List.Perm.swap _ _ _))) (fun _ _ h => h) (fun _ h => h.elim)) ?_
        intro s2 _ hg
        exact ⟨_, ⟨rfl, rfl, .inl ⟨rfl, rfl, rfl⟩⟩, VecHeap.retok hg.1 (fun _ => rfl) false (fun h => by cases h), (Kept.tail hk1).trans (Kept.tail hg.2)⟩
  | l + 1, collapse, O, L, s, r, sh, N, idx, res, hf, hi, hv, hr, hrt, h => by
    obtain ⟨Ns, off, x, sh', rv, hN, h1, h2, h3, h4, h5, h6, h7, h8⟩ := hf.slice hB hv
    obtain ⟨cl, _, hc, _⟩ := h.look (List.mem_cons_self (a := r))
    unfold sliceRight
    have hm : mayMutate E (some e) true r.ptr s = .ok s (mutable E e cl) := canMutate_eq hc
    rw [bind_ok (liftO_eq h4), bind_ok hm]
    by_cases hm : mutable E e cl = true
    · rw [hm]
      subst hN
      have hin := hf.inside hB hi h4 h5
      have hlt : off < Ns.length := (List.getElem?_eq_some_iff.mp h5).1
      obtain ⟨cap, Lo, hop, hcap⟩ := open_inner he h hr hc hm
      obtain ⟨y, hy, hyv⟩ := nth_ref hop.val h5
      rw [bind_ok (liftO_eq h6), bind_ok (kid_eq hc hop.data (by rw [List.getElem?_map, hy]; rfl))]
      obtain ⟨A, B, rfl, hA⟩ := split_at hy
      have hr' : r = ⟨r.ptr, .node (.inner none Ns), r.tok, r.uniq⟩ := by rw [← hr]
      have htok : E.gc = true → cl.tok = e := fun hg => mutable_tok hg hm
      have hytok : E.gc = true → y.tok = e := fun hg => (hop.tok hg y (by simp)).trans (htok hg)
      have hlo := hop.length
      have hAv : A.map Ref.val = (Ns.take off).map Val.node := by
        have := congrArg (List.take off) hop.val
        rw [← List.map_take, ← List.map_take, List.take_left' hA] at this
        exact this
      have hBv : B.map Ref.val = (Ns.drop (off + 1)).map Val.node := by
        have := congrArg (List.drop (off + 1)) hop.val
        rw [← List.map_drop, ← List.map_drop, show A ++ y :: B = (A ++ [y]) ++ B by simp, List.drop_left' (by simp [hA])] at this
        exact this
      have hthrow : ∀ s' : St Dat T, Gone c E u (r.ptr :: O) (y :: (A ++ B ++ L)) s.mem s'.mem → Gone c E u O (r :: L) s.mem s'.mem := by
        intro s' hg
        have := hop.gone (Gone.permL hg (perm_child A B y L).symm) (t := r.tok) (b := r.uniq) (fun hg => (htok hg).trans (hrt hg).symm)
        rw [← hr'] at this
        exact this
      have hkL : ∀ {m1 : Mem Dat T}, Kept (sys c E u) (r.ptr :: O) (A ++ B ++ L) s.mem m1 → Kept (sys c E u) O L s.mem m1 :=
        fun hk => hk.mono (fun z hz => List.mem_append_right _ hz) (fun _ h => List.mem_cons_of_mem _ h)
      have hdat : cl.data = .inner cap none (A.map Ref.ptr ++ y.ptr :: B.map Ref.ptr) := by rw [hop.data, List.map_append]; rfl
      have hlenp : (A.map Ref.ptr ++ y.ptr :: B.map Ref.ptr).length ≤ cap := by simpa using hop.len
      -- the node is not needed any more
      have hright : ∀ (s1 : St Dat T) (n : Nat) (Lk Q : List (Ref (Val T))), n = off + 1 → s1.mem r.ptr = some cl → Inv (sys c E u) s1.mem (r.ptr :: O) (B ++ Q) →
          Out (decRight c E l r.ptr sh n s1) (fun s' _ => Gone c E u O Q s1.mem s'.mem) (fun _ => False) := by
        rintro s1 _ Lk Q rfl hc1 hi1
        exact decRight_open hB hf (Nat.succ_pos _) hlt (Lk := A ++ [y]) (Ld := B) hc1 hdat hop.els (fun hg => mutable_rc hg hm) hop.capRc (by simp) (by simp [hA]) hBv hi1
      rcases h8 with ⟨hcol, hres⟩ | ⟨hcol, hres, hval'⟩
      · rw [if_pos hcol]
        refine out_bind (out_mono (sliceMut_out hB hE he l collapse (r.ptr :: O) (A ++ B ++ L) s y sh' x idx res h7 hin hres hyv hytok (hop.inv.permL (perm_child A B y L))) (fun _ _ h => h) hthrow) ?_
        rintro s1 rr ⟨Lr, hcut, hi1, hk1⟩
        have hA0 : A = [] := List.eq_nil_of_length_eq_zero (hA.trans hcol.2)
        subst hA0
        refine out_bind (out_mono (hright s1 1 [] (Lr ++ L) (by omega) ((hk1.2 _ List.mem_cons_self).trans hc) (hi1.permL ?_)) (fun _ _ h => h) (fun _ h => h.elim)) ?_
        · simp only [List.nil_append]
          rw [← List.append_assoc, ← List.append_assoc]
          exact List.perm_append_comm.append_right L
        · intro s2 _ hg
          exact ⟨Lr, hcut, hg.1, (hkL hk1).trans (hg.2.mono (fun z hz => List.mem_append_right _ hz) (fun _ h => h))⟩
      · rw [if_neg hcol]
        refine out_bind (out_mono (sliceMut_out hB hE he l false (r.ptr :: O) (A ++ B ++ L) s y sh' x idx rv h7 hin hres hyv hytok (hop.inv.permL (perm_child A B y L))) (fun _ _ h => h) hthrow) ?_
        rintro s1 rr ⟨Lr, hcut, hi1, hk1⟩
        have hc1 := (hk1.2 _ List.mem_cons_self).trans hc
        refine out_guard (E' := fun _ => False) ?_ (fun _ h => h.elim)
        obtain ⟨c1, c2, hor⟩ := hcut
        unfold sliceNode
        unfold sliceVal at hval'
        rcases hor with ⟨e3, e4, rfl⟩ | ⟨a, nx, e3, e4, rfl⟩
        · rw [e4] at hval'
          rw [e3]
          simp only at hval' ⊢
          by_cases h0 : off = 0
          · rw [if_pos h0] at hval' ⊢
            cases hval'
            have hA0 : A = [] := List.eq_nil_of_length_eq_zero (hA.trans h0)
            subst hA0
            refine out_bind (hright s1 1 [] ([⟨rr.2.2.2, .node rv.2.2.2, e, false⟩] ++ L) (by omega) hc1 (hi1.permL ?_)) ?_
            · simp only [List.nil_append]
              rw [← List.append_assoc, ← List.append_assoc]
              exact List.perm_append_comm.append_right L
            · intro s2 _ hg
              exact ⟨_, ⟨h3, c2, .inl ⟨rfl, rfl, rfl⟩⟩, hg.1, (hkL hk1).trans (hg.2.mono (fun z hz => List.mem_append_right _ hz) (fun _ h => h))⟩
          rw [if_neg h0] at hval' ⊢
          by_cases hcc : collapse = true ∧ off = 1 ∧ c.BL < c.BL + c.B * l
          · rw [if_pos hcc] at hval'
            rw [if_pos (by rw [h3]; exact hcc)]
            obtain ⟨x0, hx0⟩ : ∃ x0, Ns[0]? = some x0 := ⟨_, List.getElem?_eq_getElem (by omega)⟩
            rw [hx0] at hval'
            cases hval'
            obtain ⟨a0, rfl⟩ : ∃ a0, A = [a0] := List.length_eq_one_iff.mp (hA.trans hcc.2.1)
            have ha0 : a0.val = .node x0 := by
              have := congrArg (fun z => z[0]?) hop.val
              simp only [List.cons_append, List.getElem?_map, hx0, Option.map_some] at this
              simpa using this
            rw [bind_ok (kid_eq hc1 hdat (i := 0) (q := a0.ptr) rfl)]
            refine out_bind (Q := fun s' _ => s' = s1) rfl ?_
            intro s1' _ hs
            rw [hs]
            refine out_bind (hright s1 2 [] (a0 :: [⟨rr.2.2.2, .node rv.2.2.2, e, false⟩] ++ L) (by omega) hc1 (hi1.permL ?_)) ?_
            · exact perm_two _ a0 B L
            · intro s2 _ hg
              refine ⟨_, ⟨?_, c2, .inr ⟨a0.ptr, x0, rfl, rfl, rfl⟩⟩, ?_, (hkL hk1).trans (hg.2.mono (fun z hz => List.mem_append_right _ hz) (fun _ h => h))⟩
              · rw [h3]
              · have : a0 = ⟨a0.ptr, .node x0, a0.tok, a0.uniq⟩ := by rw [← ha0]
                have hg1 := hg.1
                rw [this] at hg1
                exact VecHeap.retok hg1 (fun hgc => (hop.tok hgc a0 (by simp)).trans (htok hgc)) false (fun h => by cases h)
          · rw [if_neg hcc] at hval'
            rw [if_neg (by rw [h3]; exact hcc)]
            cases hval'
            have hi1' : Inv (sys c E u) s1.mem (r.ptr :: O) (B ++ (⟨rr.2.2.2, .node rv.2.2.2, e, false⟩ :: (A ++ L))) := hi1.permL (perm_rest _ A B L)
            refine out_bind (decRest_out (Lk := A ++ [y]) (Lc := B) hB hf (Nat.succ_pos _) hlt List.mem_cons_self hc1 hdat (by simp) (by simp [hA]) hBv hi1') ?_
            intro s2 _ hg2
            have hc2 := (hg2.2.2 _ List.mem_cons_self).trans hc1
            rw [bind_ok (cutKids_eq hc2 hdat hlenp), List.take_left' (by simpa using hA)]
            have hop2 := hop.put (m' := s2.mem) (L' := ⟨rr.2.2.2, .node rv.2.2.2, e, false⟩ :: L) (Lo' := A) (Ns' := Ns.take off) (hg2.1.permL List.perm_middle.symm) hAv
              (fun hgc z hz => hop.tok hgc z (by simp [hz])) (by have := hop.len; simp only [List.length_append, List.length_cons] at this; omega)
            refine ⟨_, ⟨h3, c2, .inr ⟨r.ptr, _, rfl, rfl, rfl⟩⟩, VecHeap.retok (hop2.close htok) (fun _ => rfl) false (fun h => by cases h), ?_⟩
            exact (hkL hk1).trans ((Kept.open (hg2.2.mono (fun z hz => List.mem_cons_of_mem _ (List.mem_append_right _ hz)) (fun _ h => h))).trans
              ((Kept.write hg2.1 _).mono (fun z hz => List.mem_cons_of_mem _ (List.mem_append_right _ hz)) (fun _ h => h)))
        · rw [e4] at hval'
          rw [e3]
          simp only at hval' ⊢
          cases hval'
          rw [if_pos trivial, bind_ok (putKid_eq hc1 hdat hlenp (by simpa using hA))]
          have hi2 : Inv (sys c E u) (upd s1.mem r.ptr (some { cl with data := .inner cap none (A.map Ref.ptr ++ a :: B.map Ref.ptr) })) (r.ptr :: O) (B ++ (⟨a, .node nx, e, false⟩ :: ⟨rr.2.2.2, .node rv.2.2.2, e, false⟩ :: (A ++ L))) :=
            (hi1.permL (perm_rest2 _ _ A B L)).write List.mem_cons_self _
          refine out_bind (decRest_out (s := { s1 with mem := upd s1.mem r.ptr (some { cl with data := .inner cap none (A.map Ref.ptr ++ a :: B.map Ref.ptr) }) }) (Lk := A ++ [⟨a, .node nx, e, false⟩]) (Lc := B) hB hf (Nat.succ_pos _) hlt List.mem_cons_self upd_self rfl
            (by simp) (by simp [hA]) hBv hi2) ?_
          intro s2 _ hg2
          have hc2 := (hg2.2.2 _ List.mem_cons_self).trans upd_self
          rw [bind_ok (cutKids_eq hc2 rfl (by simpa using hlenp)), show A.map Ref.ptr ++ a :: B.map Ref.ptr = (A ++ [(⟨a, .node nx, e, false⟩ : Ref (Val T))]).map Ref.ptr ++ B.map Ref.ptr by simp, List.take_left' (by simp [hA])]
          have hop2 := hop.put (m' := s2.mem) (L' := ⟨rr.2.2.2, .node rv.2.2.2, e, false⟩ :: L) (Lo' := A ++ [⟨a, .node nx, e, false⟩]) (Ns' := Ns.take off ++ [nx]) (hg2.1.permL (perm_rest3 _ _ A L)) (by simp [hAv])
            (fun hgc z hz => by
              rcases List.mem_append.mp hz with hz | hz
              · exact hop.tok hgc z (by simp [hz])
              · rw [List.mem_singleton.mp hz]; exact (htok hgc).symm) (by have := hop.len; simp only [List.length_append, List.length_cons] at this; simp; omega)
          refine ⟨_, ⟨h3, c2, .inr ⟨r.ptr, _, rfl, rfl, rfl⟩⟩, VecHeap.retok (hop2.close htok) (fun _ => rfl) false (fun h => by cases h), ?_⟩
          have hin' : ∀ z ∈ L, z ∈ (⟨a, .node nx, e, false⟩ :: ⟨rr.2.2.2, .node rv.2.2.2, e, false⟩ :: (A ++ L) : List (Ref (Val T))) := fun z hz => List.mem_cons_of_mem _ (List.mem_cons_of_mem _ (List.mem_append_right _ hz))
          refine (hkL hk1).trans (.trans ?_ ((Kept.open (hg2.2.mono hin' (fun _ h => h))).trans ((Kept.write hg2.1 _).mono hin' (fun _ h => h))))
          exact (Kept.write hi1 _).mono (fun z hz => List.mem_cons_of_mem _ (List.mem_cons_of_mem _ (List.mem_append_right (A ++ B) hz))) (fun _ h => h)
    · have hm := Bool.eq_false_iff.mpr hm
      rw [hm]
      have ha := at_of_shared h (List.mem_cons_self (a := r)) hc hm hrt
      rw [hr] at ha
      refine sliceShared_out (own := some e) (t := e) hB hE (fun _ => rfl) hf hi hv h ha (.inr ⟨rfl, r, rfl, hr, rfl, reach_of_shared h hc hm⟩) h4 ?_
      intro col x sh' q v a1 a2 a3 a4 a5
      exact sliceNew_out hB hE (fun _ => rfl) l col s q sh' x idx v a1 a2 a3 h a4 (fun _ => a5)

end
end VecHeap
