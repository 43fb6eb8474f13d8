import Verif.FlexHeap.Mut

/-!
# Slices of flexible vectors that change nodes
-/

namespace FlexHeap
open Mm Rrb VecHeap

variable {T : Type} {c : Cfg} {E : Env Dat T} {u : Toks E.gc} {O : List Nat} {L : List (Ref (Val T))}

section
variable {s : St Dat T} {m m' : Mem Dat T} {p q n i t l e : Nat} {N R X : Node T} {Ns : List (Node T)} {ks sz ss : List Nat} {cl ct : Cell Dat T} {r tr : Ref (Val T)} {own : Option Nat} {cap capT : Nat}
  {rel : Option Nat} {Lo : List (Ref (Val T))} {rs : Option (List Nat)} {idx : Nat} {mu : Bool}

/-- `dec_right_visitor` on a relaxed node that may be changed -/
theorem decRightR_open (hB : 0 < c.B) (hw : ∀ x ∈ Ns, WF c l x) (hsz : sz = psums 0 (Ns.map fun x => (els l x).length)) (hn0 : 0 < n) (hn : n ≤ Ns.length) {Lk Ld : List (Ref (Val T))} (hc : s.mem p = some cl)
    (hd : cl.data = .inner (2 ^ c.B) (some tr.ptr) ks) (hels : cl.els = []) (hrc : E.gc = false → cl.rc = 1) (htr : tr.val = .table ss) (hks : ks = Lk.map Ref.ptr ++ Ld.map Ref.ptr) (hlk : Lk.length = n)
    (hv : Ld.map Ref.val = (Ns.drop n).map Val.node) (h : Inv (sys c E u) s.mem (p :: O) (Ld ++ tr :: L)) :
    Out (decRightR c E l p (c.BL + c.B * l) sz n s) (fun s' _ => Gone c E u O L s.mem s'.mem) (fun _ => False) := by
  unfold decRightR
  by_cases hg : E.gc = true
  · rw [bind_ok (dec_gc hg hc)]
    exact ⟨drop_gc (Ld := [tr]) hg (drop_gc hg (h.forget hg)), .refl⟩
  · have hg : E.gc = false := Bool.eq_false_iff.mpr hg
    rw [bind_ok (dec_rc hg hc (by rw [hrc hg]; omega)), if_pos (by rw [hrc hg]; rfl)]
    have hk0 : Kept (sys c E u) O L s.mem (upd s.mem p (some { cl with rc := cl.rc - 1 })) := (Kept.write h _).mono (fun x hx => List.mem_append_right _ (List.mem_cons_of_mem _ hx)) (fun _ h => h)
    refine out_bind (decRestR_out (s := { s with mem := upd s.mem p (some { cl with rc := cl.rc - 1 }) }) (cl := { cl with rc := cl.rc - 1 }) hB hw hsz hn0 hn upd_self hd hks hlk hv (h.write List.mem_cons_self _)) ?_
    intro s2 _ hg2
    have hc2 : s2.mem p = some { cl with rc := cl.rc - 1 } := (hg2.2.2 p List.mem_cons_self).trans upd_self
    refine out_mono (delInnerR_rc hg hg2.1 hc2 hd hels htr) ?_ (fun _ h => h)
    intro s3 _ hg3
    exact Gone.trans (hk0.trans (Kept.tail (Kept.open hg2.2))) hg3

/-- other sizes for a node with a table of its own -/
theorem setSizes_close {β : Type} {g : List Nat → List Nat} {s0 : List Nat} {f : HM T β} (hc : s.mem p = some cl) (hd : cl.data = .inner (2 ^ c.B) (some t) (Lo.map Ref.ptr)) (hels : cl.els = []) (hrc : E.gc = false → cl.rc = 1)
    (hlo : Lo.length ≤ 2 ^ c.B) (hval : Lo.map Ref.val = Ns.map Val.node) (htok : E.gc = true → ∀ x ∈ Lo, x.tok = cl.tok) (h : Inv (sys c E u) s.mem (p :: t :: O) (Lo ++ L)) (hT : Tb c E s.mem t ct (2 ^ c.B) ss)
    (hss : slice ss 0 n = some s0) (hl : (g s0).length ≤ 2 ^ c.B) (hte : u.live ct.tok → ct.tok = e) (hce : E.gc = true → cl.tok = e) :
    ∃ m', ((sizesOf t).bind fun ss => (liftO (slice ss 0 n)).bind fun ss => (setSizes t (g ss)).bind fun _ => f) s = f { s with mem := m' } ∧
      Inv (sys c E u) m' O (⟨p, .node (.inner (some (g s0)) Ns), e, false⟩ :: L) ∧ Kept (sys c E u) O L s.mem m' := by
  have hop : OpG c E u s.mem (t :: O) L p cl (2 ^ c.B) (some t) Lo Ns := ⟨hc, hd, hels, hrc, fun _ => rfl, fun _ => rfl, hlo, hval, htok, h⟩
  obtain ⟨hop4, hk4⟩ := hop.sizes { ct with data := .table (2 ^ c.B) (g s0) }
  have hT4 := hT.set (m' := s.mem) hl
  refine ⟨upd s.mem t (some { ct with data := .table (2 ^ c.B) (g s0) }), ?_, ?_, hk4⟩
  · rw [bind_ok (sizesOf_eq hT.cell hT.data), bind_ok (liftO_eq hss), bind_ok (setSizes_eq hT.cell hT.data hl)]
  · have := OpG.closeT hop4 hT4 (k := e) (fun hl => by rw [hce (live_gc hl)]; exact hte hl) hce
    exact VecHeap.retok this (fun _ => rfl) false (fun h => by cases h)

/-- `slice_right_mut_visitor` takes the reference to the node -/
theorem sliceMutR_out (hB : 0 < c.B) (hE : E.Fresh) (he : E.gc = true → u.live e) : ∀ (l : Nat) (collapse : Bool) (O : List Nat) (L : List (Ref (Val T))) (s : St Dat T) (r : Ref (Val T)) (sh : RShp) (N : Node T) (idx : Nat)
    (res : Nat × Option (Node T) × Nat × Node T), RFits c l sh N → idx < (els l N).length → Rrb.sliceRight c collapse l (sh.pos N) idx = some res → r.val = .node N → (E.gc = true → r.tok = e) →
    Inv (sys c E u) s.mem O (r :: L) → NoTab s.fault →
    Out (sliceRightR c E (some e) true collapse l r.ptr sh idx s) (fun s' rr => ∃ Lr, Cut e rr res Lr ∧ Inv (sys c E u) s'.mem O (Lr ++ L) ∧ Kept (sys c E u) O L s.mem s'.mem)
      (fun s' => Gone c E u O (r :: L) s.mem s'.mem)
  | l, collapse, O, L, s, r, .reg sh, N, idx, res, hf, hi, hv, hr, hrt, h, hN => by
    have := sliceMut_out hB hE he l collapse O L s r sh N idx res hf (RIn.of hf hi) hv hr hrt h
    cases l <;> exact this
  | 0, collapse, O, L, s, r, .rel i sz, N, idx, res, hf, hi, hv, hr, hrt, h, hN => hf.rel0.elim
  | l + 1, collapse, O, L, s, r, .rel i sz, N, idx, res, hf, hi, hv, hr, hrt, h, hN => by
    obtain ⟨Ns, off, x, rv, hN', hi', h1, h2, h3, h4, h5, h6, h7, hin, h8⟩ := hf.slice hB hi hv
    obtain ⟨cl, _, hc, _⟩ := h.look (List.mem_cons_self (a := r))
    unfold sliceRightR
    have hm : mayMutate E (some e) true r.ptr s = .ok s (mutable E e cl) := canMutate_eq hc
    rw [bind_ok (liftO_eq h5), bind_ok hm]
    by_cases hm : mutable E e cl = true
    · rw [hm]
      subst hN' hi'
      have hw := h2 x (List.mem_of_getElem? h6)
      have hlt : off < Ns.length := (List.getElem?_eq_some_iff.mp h6).1
      obtain ⟨cap, tr, Lo, hop, hcap, htr, htt⟩ := open_innerR he h hr hc hm
      subst hcap
      obtain ⟨y, hy, hyv⟩ := nth_ref hop.val h6
      have hyd := hop.inv.den (r := y) (List.mem_append_left _ (List.mem_of_getElem? hy))
      rw [hyv] at hyd
      rw [bind_ok (relTowards_eq (idx := idx) hB hc hop.data (by rw [List.getElem?_map, hy]; rfl) h6 hw hyd h3)]
      obtain ⟨A, B, rfl, hA⟩ := split_at hy
      have hfx := kidSh_fits hB hw (size := (els l x).length) rfl
      have hr' : r = ⟨r.ptr, .node (.inner (some sz) Ns), r.tok, r.uniq⟩ := by rw [← hr]
      have htok : E.gc = true → cl.tok = e := fun hg => mutable_tok hg hm
      have hytok : E.gc = true → y.tok = e := fun hg => (hop.tok hg y (by simp)).trans (htok hg)
      have hlo := hop.length
      simp only [List.length_append, List.length_cons] at hlo
      have hAv : A.map Ref.val = (Ns.take off).map Val.node := by
        have := congrArg (List.take off) hop.val
        rw [← List.map_take, ← List.map_take, List.take_left' hA] at this
        exact this
      have hBv : B.map Ref.val = (Ns.drop (off + 1)).map Val.node := by
        have := congrArg (List.drop (off + 1)) hop.val
        rw [← List.map_drop, ← List.map_drop, show A ++ y :: B = (A ++ [y]) ++ B by simp, List.drop_left' (by simp [hA])] at this
        exact this
      have hAt : E.gc = true → ∀ z ∈ A, z.tok = cl.tok := fun hg z hz => hop.tok hg z (by simp [hz])
      have hthrow : ∀ s' : St Dat T, Gone c E u (r.ptr :: O) (y :: (A ++ B ++ tr :: L)) s.mem s'.mem → Gone c E u O (r :: L) s.mem s'.mem := by
        intro s' hg
        have := hop.gone htr htt (Gone.permL hg (perm_child A B y (tr :: L)).symm) (t := r.tok) (b := r.uniq) (fun hg => (htok hg).trans (hrt hg).symm)
        rw [← hr'] at this
        exact this
      have hkL : ∀ {m1 : Mem Dat T}, Kept (sys c E u) (r.ptr :: O) (A ++ B ++ tr :: L) s.mem m1 → Kept (sys c E u) O L s.mem m1 :=
        fun hk => hk.mono (fun z hz => List.mem_append_right _ (List.mem_cons_of_mem _ hz)) (fun _ h => List.mem_cons_of_mem _ h)
      have hdat : cl.data = .inner (2 ^ c.B) (some tr.ptr) (A.map Ref.ptr ++ y.ptr :: B.map Ref.ptr) := by rw [hop.data, List.map_append]; rfl
      have hlenp : (A.map Ref.ptr ++ y.ptr :: B.map Ref.ptr).length ≤ 2 ^ c.B := by simpa using hop.len
      have hinv := hop.inv.permL (perm_child A B y (tr :: L))
      -- the node is not needed any more
      have hright : ∀ (s1 : St Dat T) (n : Nat) (Q : List (Ref (Val T))), n = off + 1 → s1.mem r.ptr = some cl → Inv (sys c E u) s1.mem (r.ptr :: O) (B ++ tr :: Q) →
          Out (decRightR c E l r.ptr (c.BL + c.B * l) sz n s1) (fun s' _ => Gone c E u O Q s1.mem s'.mem) (fun _ => False) := by
        rintro s1 _ Q rfl hc1 hi1
        exact decRightR_open hB h2 h3 (Nat.succ_pos _) hlt (Lk := A ++ [y]) (Ld := B) hc1 hdat hop.els (fun hg => mutable_rc hg hm) htr (by simp) (by simp [hA]) hBv hi1
      rcases h8 with ⟨hcol, hres⟩ | ⟨hcol, hres, hval'⟩
      · rw [if_pos hcol]
        refine out_bind (out_mono (sliceMutR_out hB hE he l collapse (r.ptr :: O) (A ++ B ++ tr :: L) s y _ x _ res hfx hin hres hyv hytok hinv hN) (fun _ _ h => h) hthrow) ?_
        rintro s1 rr ⟨Lr, hcut, hi1, hk1⟩
        have hA0 : A = [] := List.eq_nil_of_length_eq_zero (hA.trans hcol.2)
        subst hA0
        refine out_bind (out_mono (hright s1 1 (Lr ++ L) (by omega) ((hk1.2 _ List.mem_cons_self).trans hc) (hi1.permL ?_)) (fun _ _ h => h) (fun _ h => h.elim)) ?_
        · simp only [List.nil_append]
          rw [← List.append_assoc]
          refine (List.perm_append_comm.append_right (tr :: L)).trans ?_
          rw [List.append_assoc]
          exact List.Perm.append_left _ List.perm_middle
        · intro s2 _ hg
          exact ⟨Lr, hcut, hg.1, (hkL hk1).trans (hg.2.mono (fun z hz => List.mem_append_right _ hz) (fun _ h => h))⟩
      · rw [if_neg hcol]
        refine out_bind (out_mono (out_noTab (calm_sliceRightR c E (some e) l true false y.ptr _ _) hN (sliceMutR_out hB hE he l false (r.ptr :: O) (A ++ B ++ tr :: L) s y _ x _ rv hfx hin hres hyv hytok hinv hN)) (fun _ _ h => h) hthrow) ?_
        rintro s1 rr ⟨⟨Lr, hcut, hi1, hk1⟩, hN1⟩
        have hc1 := (hk1.2 _ List.mem_cons_self).trans hc
        refine out_guard (E' := fun _ => False) ?_ (fun _ h => h.elim)
        obtain ⟨c1, c2, hor⟩ := hcut
        unfold sliceNodeR
        unfold sliceValR at hval'
        rcases hor with ⟨e3, e4, rfl⟩ | ⟨a, nx, e3, e4, rfl⟩
        · rw [e4] at hval'
          rw [e3]
          generalize htl : (⟨rr.2.2.2, .node rv.2.2.2, e, false⟩ : Ref (Val T)) = tl at hi1
          simp only at hval' ⊢
          by_cases h0 : off = 0
          · rw [if_pos h0] at hval' ⊢
            cases hval'
            have hA0 : A = [] := List.eq_nil_of_length_eq_zero (hA.trans h0)
            subst hA0
            refine out_bind (hright s1 1 ([tl] ++ L) (by omega) hc1 (hi1.permL ?_)) ?_
            · simp only [List.nil_append]
              rw [← List.append_assoc]
              refine (List.perm_append_comm.append_right (tr :: L)).trans ?_
              rw [List.append_assoc]
              exact List.Perm.append_left _ List.perm_middle
            · intro s2 _ hg
              refine ⟨[tl], ⟨rfl, c2, .inl ⟨rfl, rfl, by rw [htl]⟩⟩, hg.1, (hkL hk1).trans (hg.2.mono (fun z hz => List.mem_append_right _ hz) (fun _ h => h))⟩
          rw [if_neg h0] at hval' ⊢
          by_cases hcc : collapse = true ∧ off = 1 ∧ c.BL < c.BL + c.B * l
          · rw [if_pos hcc] at hval' ⊢
            obtain ⟨x0, hx0⟩ : ∃ x0, Ns[0]? = some x0 := ⟨_, List.getElem?_eq_getElem (by omega)⟩
            rw [hx0] at hval'
            cases hval'
            obtain ⟨a0, rfl⟩ : ∃ a0, A = [a0] := List.length_eq_one_iff.mp (hA.trans hcc.2.1)
            have ha0 : a0.val = .node x0 := by
              have := congrArg (fun z => z[0]?) hop.val
              simp only [List.cons_append, List.getElem?_map, hx0, Option.map_some] at this
              simpa using this
            rw [bind_ok (kid_eq hc1 hdat (i := 0) (q := a0.ptr) rfl)]
            refine out_bind (Q := fun s' _ => s' = s1) rfl ?_
            intro s1' _ hs
            rw [hs]
            refine out_bind (hright s1 2 (a0 :: [tl] ++ L) (by omega) hc1 (hi1.permL ?_)) ?_
            · exact (perm_two tl a0 B (tr :: L)).trans (List.Perm.append_left _ (List.perm_middle (l₁ := [a0, tl])))
            · intro s2 _ hg
              refine ⟨_, ⟨rfl, c2, .inr ⟨a0.ptr, x0, rfl, rfl, rfl⟩⟩, ?_, (hkL hk1).trans (hg.2.mono (fun z hz => List.mem_append_right _ hz) (fun _ h => h))⟩
              have : a0 = ⟨a0.ptr, .node x0, a0.tok, a0.uniq⟩ := by rw [← ha0]
              have hg1 := hg.1
              rw [this, ← htl] at hg1
              exact VecHeap.retok hg1 (fun hgc => (hAt hgc a0 (by simp)).trans (htok hgc)) false (fun h => by cases h)
          · rw [if_neg hcc] at hval' ⊢
            cases hval'
            simp only [if_true]
            have hi1' : Inv (sys c E u) s1.mem (r.ptr :: O) (B ++ (tl :: (A ++ tr :: L))) := hi1.permL (perm_rest _ A B (tr :: L))
            refine out_bind (out_noTab (calm_decRestR c E l r.ptr _ sz (off + 1)) hN1 (decRestR_out (Lk := A ++ [y]) (Lc := B) hB h2 h3 (Nat.succ_pos _) hlt hc1 hdat (by simp) (by simp [hA]) hBv hi1')) ?_
            rintro s2 _ ⟨hg2, hN2⟩
            have hc2 := (hg2.2.2 _ List.mem_cons_self).trans hc1
            have hi2 : Inv (sys c E u) s2.mem (r.ptr :: O) (tr :: (A ++ tl :: L)) := hg2.1.permL (((List.Perm.cons _ List.perm_middle).trans (List.Perm.swap _ _ _)).trans (List.Perm.cons _ List.perm_middle.symm))
            refine out_bind (out_mono (mutTable_raw (k := .table) (n := off) hE he hc2 hdat hi2 htr (by omega) (by omega)) (fun _ _ h => h) (fun _ h => ?_)) ?_
            · obtain ⟨_, j, hj⟩ := h
              exact hN2 j hj
            · rintro s3 t ⟨ct, ss, hc3, hi3, hT, hss, hte, hkk⟩
              have hnp : r.ptr ≠ t := by
                intro h0
                have := hi3.open_nodup
                simp [h0] at this
              have hcut := cutKids_eq (n := off) hc3 rfl hlenp
              rw [List.take_left' (by simpa using hA)] at hcut
              rw [bind_ok hcut]
              obtain ⟨m4, he4, hi4, hk4⟩ := setSizes_close (c := c) (u := u) (O := O) (L := tl :: L) (Lo := A) (Ns := Ns.take off) (g := fun z => z) (s0 := sz.take off) (n := off) (e := e) (f := M.ret (c.BL + c.B * l, some r.ptr, rr.2.2))
                (s := { s3 with mem := upd s3.mem r.ptr (some { cl with data := .inner (2 ^ c.B) (some t) (A.map Ref.ptr) }) })
                (cl := { cl with data := .inner (2 ^ c.B) (some t) (A.map Ref.ptr) }) upd_self rfl hop.els hop.rc (by omega) hAv hAt (hi3.write List.mem_cons_self _)
                (hT.mem (upd_ne (Ne.symm hnp))) (by
                  rcases hss with rfl | rfl
                  · exact slice_zero (by omega)
                  · rw [slice_zero (by rw [List.length_take]; omega), List.take_take, Nat.min_self]) (by rw [List.length_take]; omega) hte htok
              refine cast (congrArg (fun z => Out z _ _) he4.symm) ?_
              refine ⟨_, ⟨rfl, c2, .inr ⟨r.ptr, _, rfl, rfl, rfl⟩⟩, ?_, ?_⟩
              · rw [htl]; exact hi4
              · have hk2 : Kept (sys c E u) O L s1.mem s2.mem := hg2.2.mono (fun z hz => by simp [hz]) (fun _ h => List.mem_cons_of_mem _ h)
                exact (((hkL hk1).trans hk2).trans (hkk.mono (fun z hz => by simp [hz]) (fun _ h => h))).trans (((Kept.write hi3 (some { cl with data := .inner (2 ^ c.B) (some t) (A.map Ref.ptr) })).mono (fun z hz => by simp [hz]) (fun _ h => List.mem_cons_of_mem _ h)).trans (Kept.tail hk4))
        · rw [e4] at hval'
          rw [e3]
          generalize htl : (⟨rr.2.2.2, .node rv.2.2.2, e, false⟩ : Ref (Val T)) = tl at hi1
          simp only [if_true] at hval' ⊢
          cases hval'
          generalize hna : (⟨a, .node nx, e, false⟩ : Ref (Val T)) = na at hi1
          have hi1' : Inv (sys c E u) s1.mem (r.ptr :: O) (tr :: (B ++ (na :: tl :: (A ++ L)))) := hi1.permL (by
            refine (perm_rest2 na tl A B (tr :: L)).trans ?_
            refine List.Perm.trans (List.Perm.append_left B ?_) List.perm_middle
            exact List.perm_middle (l₁ := na :: tl :: A))
          refine out_bind (out_mono (mutTable_raw (k := .table) (n := off) hE he hc1 hdat hi1' htr (by omega) (by omega)) (fun _ _ h => h) (fun _ h => ?_)) ?_
          · obtain ⟨_, j, hj⟩ := h
            exact hN1 j hj
          · rintro s2 t ⟨ct, ss, hc2, hi2, hT, hss, hte, hkk⟩
            have hnp : r.ptr ≠ t := by
              intro h0
              have := hi2.open_nodup
              simp [h0] at this
            refine out_bind (decRestR_out (Lk := A ++ [y]) (Lc := B) hB h2 h3 (Nat.succ_pos _) hlt hc2 rfl (by simp) (by simp [hA]) hBv hi2) ?_
            intro s3 _ hg3
            have hc3 := (hg3.2.2 _ List.mem_cons_self).trans hc2
            have hT3 := hT.mem (hg3.2.2 t (List.mem_cons_of_mem _ List.mem_cons_self))
            rw [bind_ok (putKid_eq (b := a) hc3 rfl hlenp (by simpa using hA))]
            have hcut := cutKids_eq (n := off + 1) (s := { s3 with mem := upd s3.mem r.ptr (some { cl with data := .inner (2 ^ c.B) (some t) (A.map Ref.ptr ++ a :: B.map Ref.ptr) }) })
              (cl := { cl with data := .inner (2 ^ c.B) (some t) (A.map Ref.ptr ++ a :: B.map Ref.ptr) }) upd_self rfl (by simpa using hlenp)
            rw [show A.map Ref.ptr ++ a :: B.map Ref.ptr = (A ++ [na]).map Ref.ptr ++ B.map Ref.ptr by simp [← hna], List.take_left' (by simp [hA])] at hcut
            rw [show A.map Ref.ptr ++ a :: B.map Ref.ptr = (A ++ [na]).map Ref.ptr ++ B.map Ref.ptr by simp [← hna]]
            rw [bind_ok hcut]
            simp only [upd_upd]
            have hi3 : Inv (sys c E u) s3.mem (r.ptr :: t :: O) ((A ++ [na]) ++ tl :: L) := hg3.1.permL (perm_rest3 na tl A L)
            obtain ⟨m4, he4, hi4, hk4⟩ := setSizes_close (c := c) (u := u) (O := O) (L := tl :: L) (Lo := A ++ [na]) (Ns := Ns.take off ++ [nx]) (g := fun z => z ++ [idx + 1 - rr.2.2.1]) (s0 := sz.take off) (n := off) (e := e)
              (f := M.ret (c.BL + c.B * l, some r.ptr, rr.2.2))
              (s := { s3 with mem := upd s3.mem r.ptr (some { cl with data := .inner (2 ^ c.B) (some t) ((A ++ [na]).map Ref.ptr) }) })
              (cl := { cl with data := .inner (2 ^ c.B) (some t) ((A ++ [na]).map Ref.ptr) }) upd_self rfl hop.els hop.rc (by simp; omega) (by simp [hAv, ← hna]) (fun hgc z hz => by
                rcases List.mem_append.mp hz with hz | hz
                · exact hAt hgc z hz
                · rw [List.mem_singleton.mp hz, ← hna]; exact (htok hgc).symm) (hi3.write List.mem_cons_self _)
              (hT3.mem (upd_ne (Ne.symm hnp))) (by
                rcases hss with rfl | rfl
                · exact slice_zero (by omega)
                · rw [slice_zero (by rw [List.length_take]; omega), List.take_take, Nat.min_self]) (by simp; omega) hte htok
            refine cast (congrArg (fun z => Out z _ _) he4.symm) ?_
            refine ⟨_, ⟨rfl, c2, .inr ⟨r.ptr, _, rfl, rfl, rfl⟩⟩, ?_, ?_⟩
            · rw [htl, ← c2]; exact hi4
            · have hk3 : Kept (sys c E u) O L s2.mem s3.mem := hg3.2.mono (fun z hz => by simp [hz]) (fun _ h => List.mem_cons_of_mem _ (List.mem_cons_of_mem _ h))
              exact (((hkL hk1).trans (hkk.mono (fun z hz => by simp [hz]) (fun _ h => h))).trans hk3).trans (((Kept.write hi3 (some { cl with data := .inner (2 ^ c.B) (some t) ((A ++ [na]).map Ref.ptr) })).mono (fun z hz => by simp [hz]) (fun _ h => List.mem_cons_of_mem _ h)).trans (Kept.tail hk4))
    · have hm := Bool.eq_false_iff.mpr hm
      rw [hm]
      have ha := at_of_shared h (List.mem_cons_self (a := r)) hc hm hrt
      rw [hr] at ha
      refine sliceSharedR_out (own := some e) (t := e) hB hE (fun _ => rfl) hf hi hv h ha (.inr ⟨rfl, r, rfl, hr, rfl, reach_of_shared h hc hm⟩) h5 ?_
      intro col x sh' q j v a1 a2 a3 a4 a5
      exact sliceNewR_out hB hE (fun _ => rfl) l col s q sh' x j v a1 a2 a3 h a4 (fun _ => a5)

end
end FlexHeap
