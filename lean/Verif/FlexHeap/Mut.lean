import Verif.FlexHeap.Left
import Verif.FlexHeap.Calm

/-!
# Visitors of flexible vectors that change nodes
-/

namespace FlexHeap
open Mm Rrb VecHeap

variable {T : Type} {c : Cfg} {E : Env Dat T} {u : Toks E.gc} {O : List Nat} {L : List (Ref (Val T))}

section
variable {s : St Dat T} {m m' : Mem Dat T} {p q n i j t l e k : Nat} {N R X x : Node T} {Ns : List (Node T)} {ks sz ss : List Nat} {cl ct : Cell Dat T} {r tr : Ref (Val T)} {own : Option Nat} {cap capT : Nat}
  {rel : Option Nat} {Lo : List (Ref (Val T))} {rs : Option (List Nat)} {idx : Nat}

/-- closing a node after a failure -/
theorem OpG.gone (h : OpG c E u m O (tr :: L) p cl cap (some tr.ptr) Lo Ns) (htr : tr.val = .table sz) (htt : E.gc = true → tr.tok = cl.tok) (hg : Gone c E u (p :: O) (Lo ++ tr :: L) m m') {b : Bool}
    (ht : E.gc = true → cl.tok = t) : Gone c E u O (⟨p, .node (.inner (some sz) Ns), t, b⟩ :: L) m m' := by
  have hop := h.mem (L' := tr :: L) hg.1 (hg.2.2 p List.mem_cons_self)
  refine ⟨VecHeap.retok (hop.closeR (t := t) htr (fun _ _ hl => htt (live_gc hl)) ht) (fun _ => rfl) b (fun _ => rfl), ?_⟩
  refine Kept.close (Lo := tr :: Lo) (Kept.permL hg.2 List.perm_middle) h.cell ?_ rfl
  show outsD cl.data = _
  rw [h.data]; rfl

/-- a count goes down -/
theorem decR_down {sh : RShp} (hc : s.mem p = some cl) (h2 : E.gc = false → 2 ≤ cl.rc) : decR c E (l + 1) p sh s = .ok { s with mem := down E.gc s.mem p cl } () := by
  cases sh with
  | reg sh => exact decV_down hc h2
  | rel i sz =>
    unfold decR down
    by_cases hg : E.gc = true
    · rw [bind_ok (dec_gc hg hc), if_pos hg]; rfl
    · have hg : E.gc = false := Bool.eq_false_iff.mpr hg
      have := h2 hg
      rw [bind_ok (dec_rc hg hc (by omega)), if_neg (by simp; omega), hg]
      rfl

/-- `get_mut_visitor` takes the reference to the node -/
theorem getMutR_out (hB : 0 < c.B) (hE : E.Fresh) (he : E.gc = true → u.live e) : ∀ (l : Nat) (O : List Nat) (L : List (Ref (Val T))) (s : St Dat T) (r : Ref (Val T)) (sh : RShp) (N : Node T) (idx : Nat), RFits c l sh N →
    (∀ f, ∃ R, Rrb.updateV c f l (sh.pos N) idx = some R) → r.val = .node N → (E.gc = true → r.tok = e) → Inv (sys c E u) s.mem O (r :: L) →
    Out (getMutR c E e l r.ptr sh idx s) (fun s' g => Got c E u e O L (fun f R => Rrb.updateV c f l (sh.pos N) idx = some R) s.mem s'.mem g) (fun s' => Gone c E u O (r :: L) s.mem s'.mem)
  | l, O, L, s, r, .reg sh, N, idx, hf, hv, hr, hrt, h => by
    have := getMut_out hB hE he l O L s r sh N idx hf hv hr hrt h
    cases l <;> exact this
  | 0, O, L, s, r, .rel i sz, N, idx, hf, hv, hr, hrt, h => hf.rel0.elim
  | l + 1, O, L, s, r, .rel i sz, N, idx, hf, hv, hr, hrt, h => by
    obtain ⟨R0, hR0⟩ := hv id
    obtain ⟨Ns, off, x, R0', rfl, rfl, h1, h2, h3, h3l, h4, h5, h8, -⟩ := hf.upd hB hR0
    have hoff : off < Ns.length := (List.getElem?_eq_some_iff.mp h5).1
    have hw := h2 x (List.mem_of_getElem? h5)
    have h7 := kidSh_fits hB hw (size := (els l x).length) rfl
    generalize hsh : kidSh c (c.BL + c.B * l) (els l x).length x = sh' at h7
    generalize hjj : idx - before l Ns off = jj
    have hall : ∀ f R, Rrb.updateV c f (l + 1) ((RShp.rel (c.BL + c.B * l) sz).pos (.inner (some sz) Ns)) idx = some R → ∃ R', Rrb.updateV c f l (sh'.pos x) jj = some R' ∧ R = .inner (some sz) (Ns.set off R') := by
      intro f R hR
      obtain ⟨Ns', off', x', R', e0, _, _, _, _, _, e4, e5, e8, rfl⟩ := hf.upd hB hR
      cases e0
      rw [h4] at e4
      cases e4
      rw [h5] at e5
      cases e5
      rw [hsh, hjj] at e8
      exact ⟨R', e8, rfl⟩
    have hv' : ∀ f, ∃ R, Rrb.updateV c f l (sh'.pos x) jj = some R := by
      intro f
      obtain ⟨R, hR⟩ := hv f
      obtain ⟨R', hR', _⟩ := hall f R hR
      exact ⟨R', hR'⟩
    obtain ⟨cl, _, hc, _⟩ := h.look (List.mem_cons_self (a := r))
    unfold getMutR
    rw [bind_ok (liftO_eq h4), bind_ok (canMutate_eq hc)]
    by_cases hm : mutable E e cl = true
    · rw [if_pos hm]
      obtain ⟨cap, tr, Lo, hop, hcap, htr, htt⟩ := open_innerR he h hr hc hm
      obtain ⟨y, hy, hyv⟩ := nth_ref hop.val h5
      have hyd := hop.inv.den (r := y) (List.mem_append_left _ (List.mem_of_getElem? hy))
      rw [hyv] at hyd
      have hto := relTowards_eq (idx := idx) hB hc hop.data (by rw [List.getElem?_map, hy]; rfl) h5 hw hyd h3
      rw [hsh, hjj] at hto
      rw [bind_ok hto]
      obtain ⟨A, B, rfl, hA⟩ := split_at hy
      have hr' : r = ⟨r.ptr, .node (.inner (some sz) Ns), r.tok, r.uniq⟩ := by rw [← hr]
      refine out_bind (out_mono (getMutR_out hB hE he l (r.ptr :: O) (A ++ B ++ tr :: L) s y sh' x jj h7 hv' hyv (fun hg => (hop.tok hg y (by simp)).trans (mutable_tok hg hm)) (hop.inv.permL (perm_child A B y (tr :: L)))) (fun _ _ h => h) ?_) ?_
      · intro s' hg
        have := hop.gone htr htt (Gone.permL hg (perm_child A B y (tr :: L)).symm) (t := r.tok) (b := r.uniq) (fun hg => (mutable_tok hg hm).trans (hrt hg).symm)
        rw [← hr'] at this
        exact this
      · rintro s1 ⟨g1, ℓ, j⟩ ⟨cg, xe, hcg, hxe, hg⟩
        simp only at hcg hxe hg
        obtain ⟨Rx, hRx⟩ := hv' id
        have hne : r.ptr ≠ ℓ := by
          rintro rfl
          have := (hg id Rx hRx).2.2 r.ptr List.mem_cons_self
          rw [upd_self, hc] at this
          have h0 := congrArg (fun o => o.map Cell.els) this
          simp only [Option.map_some, Option.some.injEq] at h0
          rw [hop.els] at h0
          have hj := (List.getElem?_eq_some_iff.mp hxe).1
          have := congrArg List.length h0
          simp at this
          rw [this] at hj
          simp at hj
        have hc1 : s1.mem r.ptr = some cl := by
          have := (hg id Rx hRx).2.2 r.ptr List.mem_cons_self
          rw [upd_ne hne] at this
          exact this.trans hc
        rw [bind_ok (putKid_eq (b := g1) hc1 (by rw [hop.data, List.map_append]; rfl) (by simpa using hop.len) (by simpa using hA))]
        refine ⟨cg, xe, by show upd _ _ _ ℓ = _; rw [upd_ne hne.symm]; exact hcg, hxe, ?_⟩
        intro f R hR
        obtain ⟨R', hR', rfl⟩ := hall f R hR
        obtain ⟨hi1, hk1⟩ := hg f R' hR'
        have hop2 := hop.setKid hi1 (j := off) rfl (fun hg => (mutable_tok hg hm).symm) hA
        show Inv (sys c E u) (upd (upd s1.mem r.ptr _) ℓ _) O _ ∧ Kept (sys c E u) O L s.mem (upd (upd s1.mem r.ptr _) ℓ _)
        rw [upd_comm hne]
        refine ⟨VecHeap.retok (hop2.closeR (t := e) htr (fun _ _ hl => htt (live_gc hl)) (fun hg => mutable_tok hg hm)) (fun _ => rfl) false (fun h => by cases h), ?_⟩
        have hs2 : ∀ z ∈ L, z ∈ A ++ B ++ tr :: L := fun z hz => List.mem_append_right _ (List.mem_cons_of_mem _ hz)
        exact (hk1.mono hs2 (fun _ h => List.mem_cons_of_mem _ h)).trans ((Kept.write hi1 _).mono (fun z hz => List.mem_cons_of_mem _ (hs2 z hz)) (fun _ h => h))
    · rw [if_neg hm]
      have hm := Bool.eq_false_iff.mpr hm
      have ha := at_of_shared h (List.mem_cons_self (a := r)) hc hm hrt
      rw [hr] at ha
      obtain ⟨cp0, cap0, tt, Lp0, hcp0, hdp0, _, _, _, hta, hth⟩ := at_innerR h ha
      rw [bind_ok (theTable_eq hcp0 hdp0)]
      refine out_bind (out_mono (newInnerSr_out (own := some e) hE h hta hth) (fun _ _ h => h) (fun _ he => gone_of_eq h he)) ?_
      rintro s1 n ⟨cl1, hop, htk1, hk1, hn⟩
      generalize htre : (⟨tt, .table sz, VecHeap.tk E (some e), false⟩ : Ref (Val T)) = tr at hop
      have htrv : tr.val = .table sz := by rw [← htre]
      have htrp : tr.ptr = tt := by rw [← htre]
      have htrt : tr.tok = VecHeap.tk E (some e) := by rw [← htre]
      have ha1 := (ha.kept hk1).mono (L' := tr :: r :: L) (fun x hx => List.mem_cons_of_mem _ hx)
      obtain ⟨cp1, cap1, t1, Lp, hcp1, hdp1, _⟩ := at_innerR hop.inv ha1
      rw [h3l]
      refine out_bind (out_mono (copyInnerG_out (n := Ns.length) hop ha1 (Nat.le_refl _) h1) (fun _ _ h => h) (fun _ h => h.elim)) ?_
      rintro s2 _ ⟨cl2, Lc, htk2, hop2, hk2, hptr⟩
      rw [List.take_length] at hop2
      have hptr := hptr cp1 cap1 _ _ hcp1 hdp1
      obtain ⟨cp2, hcp2, hsame⟩ := hk2.1 r.ptr ha1.reach cp1 hcp1
      have hdp2 : cp2.data = .inner cap1 (some t1) (Lp.map Ref.ptr) := hsame.1 ▸ hdp1
      obtain ⟨y, hy, hyv⟩ := nth_ref hop2.val h5
      have hkid : (Lp.map Ref.ptr)[off]? = some y.ptr := by
        have := congrArg (fun z => z[off]?) hptr
        simp only [List.getElem?_map, hy, Option.map_some] at this
        rw [List.getElem?_take_of_lt hoff] at this
        exact this.symm
      have hyd := hop2.inv.den (r := y) (List.mem_append_left _ (List.mem_of_getElem? hy))
      rw [hyv] at hyd
      have hto := relTowards_eq (idx := idx) hB hcp2 hdp2 hkid h5 hw hyd h3
      rw [hsh, hjj] at hto
      obtain ⟨A, B, rfl, hA⟩ := split_at hy
      have htok2 : E.gc = true → cl2.tok = e := fun hg => htk2.trans (htk1.trans (tk_gc hg))
      rw [← htrp] at hop2
      have htt : E.gc = true → tr.tok = cl2.tok := fun _ => by rw [htrt, htk2, htk1]
      have hsub : ∀ z ∈ r :: L, z ∈ tr :: r :: L := fun z hz => List.mem_cons_of_mem _ hz
      have hk2' : Kept (sys c E u) O (r :: L) s1.mem s2.mem := hk2.mono hsub (fun _ h => h)
      -- the element is not in a node with children
      have hapart : ∀ (m3 : Mem Dat T) (g1 ℓ j : Nat), Got c E u e (n :: O) (A ++ B ++ tr :: r :: L) (fun f R => Rrb.updateV c f l (sh'.pos x) jj = some R) s2.mem m3 (g1, ℓ, j) →
          n ≠ ℓ ∧ r.ptr ≠ ℓ ∧ m3 n = some cl2 ∧ ∃ cp3, m3 r.ptr = some cp3 ∧ Same cp2 cp3 := by
        rintro m3 g1 ℓ j ⟨cg, xe, hcg, hxe, hg⟩
        simp only at hcg hxe hg
        obtain ⟨Rx, hRx⟩ := hv' id
        obtain ⟨_, hk⟩ := hg id Rx hRx
        have hj := (List.getElem?_eq_some_iff.mp hxe).1
        have hn1 := hk.2 n List.mem_cons_self
        rw [hop2.cell] at hn1
        have hne : n ≠ ℓ := by
          rintro rfl
          rw [upd_self] at hn1
          have h0 := congrArg (fun o => (o.map Cell.els).map List.length) hn1
          simp only [Option.map_some, Option.some.injEq] at h0
          rw [hop2.els] at h0
          simp at h0
          rw [h0] at hj
          simp at hj
        obtain ⟨cp3, hcp3, hs3⟩ := hk.1 r.ptr ⟨r, by simp, .here⟩ cp2 hcp2
        have hep : cp2.els = [] := by
          obtain ⟨ck, Lk, hck, _, hok, _⟩ := hop.inv.kids ha1
          rw [hcp1] at hck
          cases hck
          obtain ⟨_, _, _, _, e2, _⟩ := okD_innerG hok
          rw [hsame.2.1]; exact e2
        have hne2 : r.ptr ≠ ℓ := by
          rintro rfl
          rw [upd_self] at hcp3
          cases hcp3
          have h0 := congrArg List.length hs3.2.1
          rw [hep] at h0
          simp at h0
          rw [h0] at hj
          simp at hj
        rw [upd_ne hne] at hn1
        rw [upd_ne hne2] at hcp3
        exact ⟨hne, hne2, hn1, cp3, hcp3, hs3⟩
      refine out_bind (Q := fun s4 (g : Nat × Nat) => ∃ (m3 : Mem Dat T) (g1 : Nat), s4.mem = upd m3 n (some { cl2 with data := .inner (capI c E (some e) Ns.length) (some tr.ptr) (A.map Ref.ptr ++ g1 :: B.map Ref.ptr) }) ∧
          Got c E u e (n :: O) (A ++ B ++ tr :: r :: L) (fun f R => Rrb.updateV c f l (sh'.pos x) jj = some R) s2.mem m3 (g1, g.1, g.2)) (out_guard (E' := fun s' => Gone c E u (n :: O) (y :: (A ++ B ++ tr :: r :: L)) s2.mem s'.mem) ?_ ?_) ?_
      · rw [bind_ok hto]
        refine out_bind (getMutR_out hB hE he l (n :: O) (A ++ B ++ tr :: r :: L) s2 y sh' x jj h7 hv' hyv (fun hg => (hop2.tok hg y (by simp)).trans (htok2 hg)) (hop2.inv.permL (perm_child A B y (tr :: r :: L)))) ?_
        rintro s3 ⟨g1, ℓ, j⟩ hgot
        obtain ⟨_, _, hcn, _⟩ := hapart _ _ _ _ hgot
        rw [bind_ok (putKid_eq (b := g1) hcn (by rw [hop2.data, List.map_append]; rfl) (by simpa using hop2.len) (by simpa using hA))]
        exact ⟨s3.mem, g1, rfl, hgot⟩
      · intro s3 hg
        have hg2 := hop2.gone htrv htt (Gone.permL hg (perm_child A B y (tr :: r :: L)).symm) (t := e) (b := true) htok2
        refine out_mono (decR_out hB (l + 1) O _ s3 ⟨n, .node (.inner (some sz) Ns), e, true⟩ (.rel (c.BL + c.B * l) sz) _ rfl hf hg2.1) ?_ (fun _ h => h)
        intro s4 _ hg4
        exact Gone.trans ((hk1.trans hk2').trans (Kept.tail hg2.2)) hg4
      · rintro s4 ⟨ℓ, j⟩ ⟨m3, g1, hs4, hgot⟩
        obtain ⟨hne, hne2, hcn, cp3, hcp3, hs3⟩ := hapart _ _ _ _ hgot
        obtain ⟨cg, xe, hcg, hxe, hg⟩ := hgot
        simp only at hcg hxe hg
        have hnr : r.ptr ≠ n := by
          intro h0
          rw [← h0, hc] at hn; cases hn
        have hc4 : s4.mem r.ptr = some cp3 := by rw [hs4, upd_ne hnr]; exact hcp3
        -- after the change
        have key : ∀ f R, Rrb.updateV c f (l + 1) ((RShp.rel (c.BL + c.B * l) sz).pos (.inner (some sz) Ns)) idx = some R →
            Inv (sys c E u) (upd s4.mem ℓ (some { cg with els := cg.els.set j (.live (f xe)) })) O (r :: ⟨n, .node R, e, false⟩ :: L) ∧
              Kept (sys c E u) O (r :: L) s.mem (upd s4.mem ℓ (some { cg with els := cg.els.set j (.live (f xe)) })) := by
          intro f R hR
          obtain ⟨R', hR', rfl⟩ := hall f R hR
          obtain ⟨hi3, hk3⟩ := hg f R' hR'
          have hop3 := hop2.setKid hi3 (j := off) rfl (fun hg => (htok2 hg).symm) hA
          rw [hs4, upd_comm hne]
          have hcl := VecHeap.retok (hop3.closeR (t := e) htrv (fun _ _ hl => htt (live_gc hl)) htok2) (fun _ => rfl) false (fun h => by cases h)
          refine ⟨hcl.permL (List.Perm.swap _ _ _), ?_⟩
          have hs2 : ∀ z ∈ r :: L, z ∈ A ++ B ++ tr :: r :: L := fun z hz => List.mem_append_right _ (List.mem_cons_of_mem _ hz)
          refine ((hk1.trans hk2').trans (hk3.mono hs2 (fun _ h => List.mem_cons_of_mem _ h))).trans ?_
          exact (Kept.write hi3 _).mono (fun z hz => List.mem_cons_of_mem _ (hs2 z hz)) (fun _ h => h)
        have hrc : E.gc = false → 2 ≤ cp3.rc := by
          intro hgc
          obtain ⟨k1, k2⟩ := key id R0 hR0
          refine k1.two hgc (by rw [upd_ne hne2]; exact hc4) ?_
          exact ((Kept.tail k2).reach (reach_of_shared h hc hm hgc)).mono (fun z hz => List.mem_cons_of_mem _ hz)
        rw [bind_ok (decR_down hc4 hrc)]
        refine ⟨cg, xe, ?_, hxe, ?_⟩
        · show down E.gc s4.mem r.ptr cp3 ℓ = some cg
          have : s4.mem ℓ = some cg := by rw [hs4, upd_ne hne.symm]; exact hcg
          unfold down
          split
          · exact this
          · rw [upd_ne hne2.symm]; exact this
        · intro f R hR
          obtain ⟨k1, k2⟩ := key f R hR
          have hd := down_kept (cl := cp3) k1 (by rw [upd_ne hne2]; exact hc4) hrc
          show Inv (sys c E u) (upd (down E.gc s4.mem r.ptr cp3) ℓ _) O _ ∧ Kept (sys c E u) O L s.mem (upd (down E.gc s4.mem r.ptr cp3) ℓ _)
          have hcomm : ∀ X, upd (down E.gc s4.mem r.ptr cp3) ℓ X = down E.gc (upd s4.mem ℓ X) r.ptr cp3 := by
            intro X
            unfold down
            split
            · rfl
            · rw [upd_comm hne2]
          rw [hcomm]
          exact ⟨hd.1, (Kept.tail k2).trans (Kept.tail hd.2)⟩

/-! ### Pushing a tail in place

Growing a table that is shared can fail when the children have been changed (see F24); `NoTab` says that no such allocation fails. -/

/-- no allocation of a table in a node that is being changed fails -/
def NoTab (f : Option (Kind × Nat)) : Prop := ∀ j, f ≠ some (.table, j)

theorem NoTab.later {f f' : Option (Kind × Nat)} (h : NoTab f) (hl : Later f f') : NoTab f' := by
  rintro j rfl
  rcases hl with hl | hl
  · cases hl
  · cases f with
    | none => cases hl
    | some f =>
      obtain ⟨k, i⟩ := f
      cases hl
      exact h _ rfl

theorem out_noTab {β : Type} {x : M Dat T β} {Q : St Dat T → β → Prop} {F : St Dat T → Prop} (hx : Calm x) (hs : NoTab s.fault) (h : Out (x s) Q F) : Out (x s) (fun s' b => Q s' b ∧ NoTab s'.fault) F := by
  have hc := hx s
  cases hxs : x s with
  | ok s' b =>
    rw [hxs] at h hc
    exact ⟨h, hs.later hc⟩
  | thrown s' => rw [hxs] at h; exact h
  | ub => rw [hxs] at h; exact h

theorem putKid_eq' {b : Nat} (hc : s.mem p = some cl) (hd : cl.data = .inner cap rel ks) (h1 : i ≤ ks.length) (h2 : ks.length ≤ i + 1) (hl : i + 1 ≤ cap) :
    putKid p i b s = .ok { s with mem := upd s.mem p (some { cl with data := .inner cap rel (ks.take i ++ [b]) }) } () := by
  unfold putKid
  rw [bind_ok (kids_eq hc hd)]
  by_cases hi : i < ks.length
  · have : ks.set i b = ks.take i ++ [b] := by
      rw [List.set_eq_take_append_cons_drop, if_pos hi, List.drop_eq_nil_of_le (by omega)]
    rw [if_pos hi, this, setKids_eq hc hd (by rw [List.length_append, List.length_take, List.length_singleton]; omega)]
  · rw [if_neg hi, if_pos (by omega), List.take_of_length_le (by omega), setKids_eq hc hd (by rw [List.length_append, List.length_singleton]; omega)]

/-- the child is put into the node and the sizes are changed -/
theorem pushPut_out (hE : E.Fresh) (he : E.gc = true → u.live e) {y : Ref (Val T)} {ni tot ts : Nat} (hc : s.mem p = some cl) (hd : cl.data = .inner (2 ^ c.B) (some tr.ptr) ks) (hels : cl.els = []) (hrc : E.gc = false → cl.rc = 1)
    (hlo : ks.take ni = Lo.map Ref.ptr) (hk1 : ni ≤ ks.length) (hk2 : ks.length ≤ ni + 1) (hni : ni + 1 ≤ 2 ^ c.B) (hval : Lo.map Ref.val = Ns.map Val.node) (htok : E.gc = true → ∀ x ∈ Lo, x.tok = cl.tok)
    (hi : Inv (sys c E u) s.mem (p :: O) (y :: (Lo ++ tr :: L))) (hy : y.val = .node X) (hyt : E.gc = true → y.tok = cl.tok) (htr : tr.val = .table sz) (hn : ni ≤ sz.length) (hsz : sz.length ≤ 2 ^ c.B)
    (htot : sz[sz.length - 1]? = some tot) (hce : E.gc = true → cl.tok = e) (hN : NoTab s.fault) :
    Out ((mutTable c E .table e p ni).bind (fun t => (putKid p ni y.ptr).bind fun _ =>
        (liftO (sz[sz.length - 1]?)).bind fun tot => (sizesOf t).bind fun ss => (liftO (slice ss 0 ni)).bind fun ss =>
          (setSizes t (ss ++ [tot + ts])).bind fun _ => M.ret (some p)) s)
      (fun s' q => q = some p ∧ Inv (sys c E u) s'.mem O (⟨p, .node (.inner (some (sz.take ni ++ [tot + ts])) (Ns ++ [X])), y.tok, false⟩ :: L) ∧ Kept (sys c E u) O (y :: L) s.mem s'.mem) (fun _ => False) := by
  have hi1 : Inv (sys c E u) s.mem (p :: O) (tr :: (Lo ++ y :: L)) := hi.permL (((List.Perm.cons _ List.perm_middle).trans (List.Perm.swap _ _ _)).trans (List.Perm.cons _ List.perm_middle.symm))
  refine out_bind (out_mono (mutTable_raw (k := .table) hE he hc hd hi1 htr hn hsz) (fun _ _ h => h) (fun _ h => ?_)) ?_
  · obtain ⟨_, j, hj⟩ := h
    exact hN j hj
  · rintro s1 t ⟨ct, ss, hc1, hi2, hT, hss, hte, hkk⟩
    have hnp : p ≠ t := by
      rintro rfl
      have := hi2.open_nodup
      simp at this
    obtain ⟨cl2, hcl2⟩ : ∃ x : Cell Dat T, x = { cl with data := .inner (2 ^ c.B) (some t) (Lo.map Ref.ptr ++ [y.ptr]) } := ⟨_, rfl⟩
    have hput : putKid p ni y.ptr s1 = .ok { s1 with mem := upd s1.mem p (some cl2) } () := by
      rw [hcl2, ← hlo]
      have := putKid_eq' (b := y.ptr) hc1 rfl hk1 hk2 hni
      exact this
    rw [bind_ok hput, bind_ok (liftO_eq htot)]
    have hT2 : Tb c E (upd s1.mem p (some cl2)) t ct (2 ^ c.B) ss := hT.mem (upd_ne (Ne.symm hnp))
    have hsl : slice ss 0 ni = some (sz.take ni) := by
      rcases hss with rfl | rfl
      · exact slice_zero hn
      · rw [slice_zero (by rw [List.length_take]; omega), List.take_take, Nat.min_self]
    rw [bind_ok (sizesOf_eq (st := { s1 with mem := upd s1.mem p (some cl2) }) hT2.cell hT2.data), bind_ok (liftO_eq hsl)]
    have hlt : (sz.take ni ++ [tot + ts]).length ≤ 2 ^ c.B := by
      rw [List.length_append, List.length_take, List.length_singleton]
      omega
    rw [bind_ok (setSizes_eq (st := { s1 with mem := upd s1.mem p (some cl2) }) hT2.cell hT2.data hlt)]
    have hlen : Lo.length = ni := by
      have := congrArg List.length hlo
      rw [List.length_take, List.length_map] at this
      omega
    have hlen2 : Lo.length = Ns.length := by
      have := congrArg List.length hval
      simpa using this
    have hi3 : Inv (sys c E u) (upd s1.mem p (some cl2)) (p :: t :: O) (Lo ++ y :: L) := hi2.write List.mem_cons_self _
    have hop : OpG c E u (upd s1.mem p (some cl2)) (t :: O) L p cl2 (2 ^ c.B) (some t) (Lo ++ [y]) (Ns ++ [X]) := by
      subst hcl2
      refine ⟨upd_self, by simp, hels, hrc, fun _ => rfl, fun _ => rfl, by simp; omega, by simp [hval, hy], ?_, by simpa using hi3⟩
      intro hg x hx
      rcases List.mem_append.mp hx with hx | hx
      · exact htok hg x hx
      · rw [List.mem_singleton.mp hx]; exact hyt hg
    obtain ⟨hop4, hk4⟩ := hop.sizes { ct with data := .table (2 ^ c.B) (sz.take ni ++ [tot + ts]) }
    have hT4 := hT2.set (m' := upd s1.mem p (some cl2)) hlt
    have hcl2t : cl2.tok = cl.tok := by rw [hcl2]
    refine ⟨rfl, ?_, ?_⟩
    · have := OpG.closeT hop4 hT4 (k := y.tok) (fun hl => by rw [hcl2t, hce (live_gc hl)]; exact hte hl) (fun hg => by rw [hcl2t]; exact (hyt hg).symm)
      exact VecHeap.retok this (fun _ => rfl) false (fun h => by cases h)
    · have hsub : ∀ x ∈ y :: L, x ∈ Lo ++ y :: L := fun x hx => List.mem_append_right _ hx
      refine ((hkk.mono hsub (fun _ h => h)).trans ((Kept.write hi2 (some cl2)).mono hsub (fun _ h => List.mem_cons_of_mem _ h))).trans ?_
      have := Kept.upd (O := O) hi3 (a := t) (.inl (List.mem_cons_of_mem _ List.mem_cons_self)) (by
        have := hi3.open_nodup
        simp at this
        exact this.2.1) (some { ct with data := .table (2 ^ c.B) (sz.take ni ++ [tot + ts]) })
      exact this.mono hsub (fun _ h => h)

/-- the outcome of `push_tail_mut_visitor` -/
def PushedMut (c : Cfg) (E : Env Dat T) (u : Toks E.gc) (O : List Nat) (L : List (Ref (Val T))) (rt r : Ref (Val T)) (m m' : Mem Dat T) : Option (Node T) → Option Nat → Prop
  | none, none => Gone c E u O (rt :: r :: L) m m'
  | some R, some a => Inv (sys c E u) m' O (⟨a, .node R, rt.tok, false⟩ :: L) ∧ Kept (sys c E u) O L m m'
  | _, _ => False

/-- `push_tail_mut_visitor` takes the references to the tail and to the node -/
theorem pushTailMutR_out (hB : 0 < c.B) (hE : E.Fresh) (he : E.gc = true → u.live e) {rt : Ref (Val T)} {t : List T} (ht : t.length = 2 ^ c.BL) (hu : rt.uniq = false) (hrt : rt.val = .node (.leaf t)) (htk : E.gc = true → e = rt.tok) :
    ∀ (l : Nat) (O : List Nat) (L : List (Ref (Val T))) (s : St Dat T) (r : Ref (Val T)) (sh : RShp) (N : Node T) (ro : Option (Node T)), RFits c (l + 1) sh N → (∀ sh0, sh = .reg sh0 → (els (l + 1) N).length < Rrb.cap c (l + 1)) →
    pushTail c (.leaf t) t.length (l + 1) (sh.pos N) = some ro → r.val = .node N → (E.gc = true → r.tok = e) → Inv (sys c E u) s.mem O (rt :: r :: L) → NoTab s.fault →
    Out (pushTailMutR c E e rt.ptr t.length (l + 1) r.ptr sh s) (fun s' q => PushedMut c E u O L rt r s.mem s'.mem ro q) (fun s' => Gone c E u O (rt :: r :: L) s.mem s'.mem)
  | l, O, L, s, r, .reg sh, N, ro, hf, hlt, hv, hr, hrt', h, hN => by
    obtain ⟨X, rfl⟩ := (hf.push_some hB ht hlt hv).2 _ rfl
    obtain ⟨size, hp⟩ := RFits.regPos hf (hlt _ rfl)
    unfold pushTailMutR
    refine out_bind (pushTailMut_out hB hE he htk hrt l O L s r sh N size X hf hp (hlt _ rfl) hv hr hrt' h) ?_
    rintro s1 n hn
    exact hn
  | l, O, L, s, r, .rel i sz, N, ro, hf, hlt, hv, hr, hrt', h, hN => by
    obtain ⟨Ns, e', rfl, rfl, h1, h2, h3, h4, h5, h6, h7, hor⟩ := hf.push hB hv
    have hpos : 0 < Ns.length := List.length_pos_iff.mpr h1
    have hw := h3 e' (List.mem_of_getElem? h6)
    have hmp := fun k => mkPath_reg (c := c) ht k
    obtain ⟨cl, _, hc, _⟩ := h.look (List.mem_cons_of_mem rt (List.mem_cons_self (a := r)))
    unfold pushTailMutR
    rw [bind_ok (canMutate_eq hc)]
    by_cases hm : mutable E e cl = true
    · rw [if_pos hm]
      obtain ⟨cap, tr, Lo, hop, hcap, htr, htt⟩ := open_innerR he (h.permL (List.Perm.swap r rt L)) hr hc hm
      subst hcap
      have hce : E.gc = true → cl.tok = e := fun hg => mutable_tok hg hm
      have hlo := hop.length
      have hr' : r = ⟨r.ptr, .node (.inner (some sz) Ns), r.tok, r.uniq⟩ := by rw [← hr]
      have hthrow : ∀ {m'}, Gone c E u (r.ptr :: O) (rt :: (Lo ++ tr :: L)) s.mem m' → Gone c E u O (rt :: r :: L) s.mem m' := by
        intro m' hg
        have := hop.gone htr htt (Gone.permL hg ((List.Perm.cons _ List.perm_middle).trans (((List.Perm.swap _ _ _)).trans ((List.Perm.cons _ List.perm_middle.symm).trans List.perm_middle.symm)))) (t := r.tok) (b := r.uniq) (fun hg => (mutable_tok hg hm).trans (hrt' hg).symm)
        rw [← hr'] at this
        exact Gone.permL this (List.Perm.swap _ _ _)
      have hin : Inv (sys c E u) s.mem (r.ptr :: O) (rt :: (Lo ++ tr :: L)) := hop.inv.permL (List.perm_middle.trans (((List.Perm.cons _ List.perm_middle).trans (List.Perm.swap _ _ _)).trans (List.Perm.cons _ List.perm_middle.symm)))
      have hfin : ∀ (s1 : St Dat T) (ch ni : Nat) (X : Node T) (A : List (Ref (Val T))) (As As' : List (Node T)), (Lo.map Ref.ptr).take ni = A.map Ref.ptr → ni ≤ (Lo.map Ref.ptr).length → (Lo.map Ref.ptr).length ≤ ni + 1 →
          ni + 1 ≤ 2 ^ c.B → A.map Ref.val = As.map Val.node → (E.gc = true → ∀ x ∈ A, x.tok = cl.tok) → Inv (sys c E u) s1.mem (r.ptr :: O) (⟨ch, .node X, rt.tok, false⟩ :: (A ++ tr :: L)) → s1.mem r.ptr = some cl →
          Kept (sys c E u) O L s.mem s1.mem → ni ≤ sz.length → NoTab s1.fault → As' = As →
          Out ((mutTable c E .table e r.ptr ni).bind (fun t' => (putKid r.ptr ni ch).bind fun _ =>
            (liftO (sz[sz.length - 1]?)).bind fun tot => (sizesOf t').bind fun ss => (liftO (slice ss 0 ni)).bind fun ss =>
              (setSizes t' (ss ++ [tot + t.length])).bind fun _ => M.ret (some r.ptr)) s1)
          (fun s' q => PushedMut c E u O L rt r s.mem s'.mem (some (.inner (some (sz.take ni ++ [(els (l + 1) (.inner (some sz) Ns)).length + t.length])) (As' ++ [X]))) q) (fun s' => Gone c E u O (rt :: r :: L) s.mem s'.mem) := by
        rintro s1 ch ni X A As _ a1 a2 a3 a4 a5 a6 a7 a8 a9 a10 a11 rfl
        refine out_mono (pushPut_out hE he (y := ⟨ch, .node X, rt.tok, false⟩) a8 hop.data hop.els hop.rc a1 a2 a3 a4 a5 a6 a7 rfl (fun hg => (htk hg).symm.trans (hce hg).symm) htr a10 (by omega) h7 hce a11) ?_ (fun _ h => h.elim)
        rintro s2 _ ⟨rfl, b1, b2⟩
        exact ⟨b1, a9.trans (Kept.tail b2)⟩
      rcases hor with ⟨hi, hor⟩ | ⟨l', r', rfl, hi, hlt', hv', hor⟩
      · rw [bind_ok (liftO_eq hi)]
        rcases hor with ⟨hr2, rfl⟩ | ⟨hr2, rfl⟩
        · simp only [if_pos hr2]
          exact ⟨h, .refl⟩
        · simp only [if_neg (show ¬ 2 ^ c.B ≤ Ns.length by omega), if_neg (show ¬ sz.length - 1 = Ns.length by omega)]
          refine out_bind (Q := fun s' y => ∃ ch, y = some (Ns.length, ch) ∧ (Inv (sys c E u) s'.mem (r.ptr :: O) (⟨ch, .node (mkPath l (.leaf t)), rt.tok, false⟩ :: (Lo ++ tr :: L)) ∧
              Kept (sys c E u) (r.ptr :: O) (rt :: (Lo ++ tr :: L)) s.mem s'.mem ∧ From (sys c E u) s'.mem ch rt.ptr) ∧ NoTab s'.fault)
            (out_bind (out_mono (out_noTab (calm_makePath c E (some e) l rt.ptr) hN (makePath_out (own := some e) hE htk hrt l (r.ptr :: O) s hin)) (fun _ _ h => h) (fun _ hg => hthrow hg)) fun s1 ch hch => ⟨ch, rfl, hch⟩) ?_
          rintro s1 _ ⟨ch, rfl, ⟨hi1, hk1, _⟩, hN1⟩
          exact hfin s1 ch Ns.length _ Lo Ns _ (by rw [List.take_of_length_le (by simp; omega)]) (by simp; omega) (by simp; omega) hr2 hop.val hop.tok hi1 ((hk1.2 _ List.mem_cons_self).trans hc)
            (hk1.mono (fun z hz => by simp [hz]) (fun _ h => List.mem_cons_of_mem _ h)) (by omega) hN1 (by rw [List.take_length])
      · rw [bind_ok (liftO_eq hi)]
        simp only [if_neg (show ¬ 2 ^ c.B ≤ Ns.length - 1 by omega), if_pos (show sz.length - 1 = Ns.length - 1 by omega)]
        obtain ⟨x, hx, hxv⟩ := nth_ref hop.val h6
        have hkid := kid_eq hc hop.data (by rw [List.getElem?_map, hx]; rfl)
        have hxd := hop.inv.den (r := x) (List.mem_append_left _ (List.mem_of_getElem? hx))
        rw [hxv] at hxd
        rw [← bind_assoc', bind_ok hkid, ← bind_assoc', bind_ok (kidRel_den hB hxd hw), ← bind_assoc']
        have hfx := kidSh_fits hB hw (size := (els (l' + 1) e').length) rfl
        have hps := hfx.push_some hB ht (fun _ _ => hlt') hv'
        obtain ⟨A, B, rfl, hA⟩ := split_at hx
        have hBn : B = [] := by
          simp only [List.length_append, List.length_cons, hA] at hlo
          exact List.eq_nil_of_length_eq_zero (by omega)
        subst hBn
        have hp1 : (rt :: (A ++ x :: [] ++ tr :: L)).Perm (rt :: x :: (A ++ tr :: L)) := List.Perm.cons rt (by
          have := perm_child A [] x (tr :: L)
          simpa using this)
        have hi0 : Inv (sys c E u) s.mem (r.ptr :: O) (rt :: x :: (A ++ tr :: L)) := hin.permL hp1
        refine out_bind (out_mono (out_noTab (calm_pushTailMutR c E e rt.ptr t.length (l' + 1) x.ptr _) hN (pushTailMutR_out hB hE he ht hu hrt htk l' (r.ptr :: O) (A ++ tr :: L) s x _ e' r' hfx (fun _ _ => hlt') hv' hxv
          (fun hg => (hop.tok hg x (by simp)).trans (mutable_tok hg hm)) hi0 hN)) (fun _ _ h => h) (fun _ hg => hthrow (Gone.permL hg hp1.symm))) ?_
        rintro s1 a ⟨hpd, hN1⟩
        cases a with
        | some ch =>
          cases r' with
          | none => exact hpd.elim
          | some X =>
            obtain ⟨hi1, hk1⟩ := hpd
            rcases hor with ⟨_, h8, rfl⟩ | ⟨h8, _⟩ | ⟨h8, _⟩ <;> cases h8
            have hval := hop.val
            have hNs : Ns.take (Ns.length - 1) ++ [e'] = Ns := by
              have h9 : Ns.drop (Ns.length - 1) = [e'] := by
                rw [List.drop_eq_getElem_cons (by omega), List.drop_eq_nil_of_le (by omega)]
                obtain ⟨_, h0⟩ := List.getElem?_eq_some_iff.mp h6
                rw [h0]
              rw [← h9, List.take_append_drop]
            rw [← hNs, List.map_append, List.map_append] at hval
            have hval' := (List.append_inj' hval rfl).1
            exact hfin s1 ch (Ns.length - 1) _ A (Ns.take (Ns.length - 1)) _ (by
                rw [List.map_append, List.take_append_of_le_length (by simp; omega), List.take_of_length_le (by simp; omega)]) (by simp; omega) (by simp; omega) (by omega) hval'
              (fun hg z hz => hop.tok hg z (by simp [hz])) hi1 ((hk1.2 _ List.mem_cons_self).trans hc) (hk1.mono (fun z hz => by simp [hz]) (fun _ h => List.mem_cons_of_mem _ h)) (by omega) hN1 rfl
        | none =>
          cases r' with
          | some X => exact hpd.elim
          | none =>
            unfold pushChild
            simp only [Nat.sub_add_cancel hpos]
            have hpd := Gone.permL hpd hp1.symm
            rcases hor with ⟨_, h8, _⟩ | ⟨_, h8, rfl⟩ | ⟨_, h8, rfl⟩
            · cases h8
            · rw [if_pos (show Ns.length < 2 ^ c.B by omega), ← bind_assoc']
              refine out_bind (out_mono (out_noTab (calm_makePath c E (some e) (l' + 1) rt.ptr) hN1 (makePath_out (own := some e) hE htk hrt (l' + 1) (r.ptr :: O) s1 hpd.1)) (fun _ _ h => h) (fun _ hg => hthrow (Gone.trans hpd.2 hg))) ?_
              rintro s2 ch ⟨⟨hi2, hk2, hf2⟩, hN2⟩
              have hk2 := hpd.2.trans hk2
              exact hfin s2 ch Ns.length _ _ Ns _ (by rw [List.take_of_length_le (by simp; omega)]) (by simp; omega) (by simp; omega) h8 hop.val hop.tok hi2 ((hk2.2 _ List.mem_cons_self).trans hc)
                (hk2.mono (fun z hz => by simp [hz]) (fun _ h => List.mem_cons_of_mem _ h)) (by omega) hN2 (by rw [List.take_length])
            · simp only [if_neg (show ¬ Ns.length < 2 ^ c.B by omega)]
              exact hthrow hpd
    · rw [if_neg hm]
      have hm := Bool.eq_false_iff.mpr hm
      have ha : At (sys c E u) s.mem (r :: L) r.ptr (.node (.inner (some sz) Ns)) := by
        have := at_of_shared h (List.mem_cons_of_mem rt (List.mem_cons_self (a := r))) hc hm hrt'
        rw [hr] at this
        exact ⟨⟨r, List.mem_cons_self, .here⟩, this.den, this.unowned⟩
      refine out_bind (pushTailNewR_out (own := some e) hB hE ht hu hrt htk l O s r.ptr _ _ ro hf hlt hv h ha) ?_
      intro s1 q hq
      cases q with
      | none =>
        cases ro with
        | some X => exact hq.elim
        | none => exact hq
      | some q =>
        cases ro with
        | none => exact hq.elim
        | some X =>
          obtain ⟨hi1, hk1, _⟩ := hq
          refine out_bind (out_mono (decR_out hB (l + 1) O _ s1 r _ _ hr hf (hi1.permL (List.Perm.swap _ _ _))) (fun _ _ h => h) (fun _ h => h.elim)) ?_
          intro s2 _ hg
          exact ⟨hg.1, (hk1.mono (fun z hz => List.mem_cons_of_mem _ (List.mem_cons_of_mem _ hz)) (fun _ h => h)).trans (Kept.tail hg.2)⟩

end
end FlexHeap
