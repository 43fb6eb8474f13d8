import Verif.VecHeap.Persist

/-!
# Slices
-/

namespace VecHeap
open Mm Rrb

variable {T : Type} {c : Cfg} {E : Env Dat T} {u : Toks E.gc} {O : List Nat} {L : List (Ref (Val T))}

section
variable {s : St Dat T} {m m' : Mem Dat T} {p q n i : Nat} {xs : List T} {N : Node T} {Ns : List (Node T)} {ks : List Nat} {cl : Cell Dat T} {r : Ref (Val T)} {own : Option Nat} {t : Nat}

/-- releasing a reference to a node with others -/
theorem dec_shared {f : HM T Unit} (h : Inv (sys c E u) s.mem O (r :: L)) (hr : E.gc = false → Reach (sys c E u) s.mem L r.ptr) :
    Out (((dec E r.ptr).bind fun last => if last then f else M.ret ()) s) (fun s' _ => Gone c E u O L s.mem s'.mem) (fun _ => False) := by
  obtain ⟨cl, _, hc, _, _, _, hrc, hO⟩ := h.look (List.mem_cons_self (a := r))
  refine out_mono (Q := fun s' _ => Gone c E u O L s.mem s'.mem) ?_ (fun _ _ h => h) (fun _ h => h)
  by_cases hg : E.gc = true
  · rw [bind_ok (dec_gc hg hc)]
    have := h.drop hc (fun hf => by rw [show (sys c E u).gc = E.gc from rfl, hg] at hf; cases hf)
    rw [show (sys c E u).gc = E.gc from rfl, hg, if_pos rfl] at this
    exact ⟨this, .refl⟩
  · have hg : E.gc = false := by simpa using hg
    have h2 := h.two hg hc (hr hg)
    rw [bind_ok (dec_rc hg hc (by omega)), if_neg (by simp; omega)]
    have := h.drop hc (fun _ => by omega)
    rw [show (sys c E u).gc = E.gc from rfl, hg] at this
    simp only [Bool.false_eq_true, if_false] at this
    refine ⟨this, ?_, ?_⟩
    · intro q _ cq hq
      by_cases he : q = r.ptr
      · subst he
        rw [hc] at hq; cases hq
        exact ⟨_, upd_self, rfl, rfl, rfl⟩
      · exact ⟨cq, by show upd s.mem _ _ _ = _; rw [upd_ne he]; exact hq, .rfl'⟩
    · intro a ha
      show upd s.mem _ _ _ = _
      rw [upd_ne]
      rintro rfl
      exact hO ha

/-- the nodes of a slice -/
def Cut (t : Nat) (r : Sliced) (v : Nat × Option (Node T) × Nat × Node T) (Lr : List (Ref (Val T))) : Prop :=
  r.1 = v.1 ∧ r.2.2.1 = v.2.2.1 ∧
    ((r.2.1 = none ∧ v.2.1 = none ∧ Lr = [⟨r.2.2.2, .node v.2.2.2, t, false⟩]) ∨
      ∃ p n, r.2.1 = some p ∧ v.2.1 = some n ∧ Lr = [⟨p, .node n, t, false⟩, ⟨r.2.2.2, .node v.2.2.2, t, false⟩])

/-- what the visitor that mutates still has to do with a node that it may not mutate -/
def Rest (c : Cfg) (E : Env Dat T) (u : Toks E.gc) (m : Mem Dat T) (p : Nat) (N : Node T) (mu : Bool) (L Lf : List (Ref (Val T))) : Prop :=
  (mu = false ∧ Lf = L) ∨ (mu = true ∧ ∃ r : Ref (Val T), r.ptr = p ∧ r.val = .node N ∧ L = r :: Lf ∧ (E.gc = false → Reach (sys c E u) m Lf p))

variable {mu : Bool} {Lf X : List (Ref (Val T))} {sh : Shp} {l : Nat}

theorem Rest.sub (h : Rest c E u m p N mu L Lf) : ∀ r ∈ Lf, r ∈ L := by
  rcases h with ⟨_, rfl⟩ | ⟨_, r, _, _, rfl, _⟩
  · exact fun _ h => h
  · exact fun _ h => List.mem_cons_of_mem _ h

theorem Rest.kept (h : Rest c E u m p N mu L Lf) (hk : Kept (sys c E u) O L m m') : Rest c E u m' p N mu L Lf := by
  have hs := h.sub
  rcases h with ⟨rfl, rfl⟩ | ⟨rfl, r, h1, h2, rfl, h3⟩
  · exact .inl ⟨rfl, rfl⟩
  · exact .inr ⟨rfl, r, h1, h2, rfl, fun hg => (hk.mono hs (fun _ h => h)).reach (h3 hg)⟩

theorem Rest.decV (hB : 0 < c.B) (hr : Rest c E u s.mem p N mu L Lf) (hf : Fits c (l + 1) sh N) (h : Inv (sys c E u) s.mem O (X ++ L)) :
    Out ((if mu then decV c E (l + 1) p sh else M.ret ()) s) (fun s' _ => Gone c E u O (X ++ Lf) s.mem s'.mem) (fun _ => False) := by
  rcases hr with ⟨rfl, rfl⟩ | ⟨rfl, r, rfl, h2, rfl, h3⟩
  · exact ⟨h, .refl⟩
  · exact decV_out hB (l + 1) O (X ++ Lf) s r sh N h2 hf (h.permL List.perm_middle)

theorem Rest.decRight {k : Nat} (hr : Rest c E u s.mem p N mu L Lf) (h : Inv (sys c E u) s.mem O (X ++ L)) :
    Out ((if mu then decRight c E l p sh k else M.ret ()) s) (fun s' _ => Gone c E u O (X ++ Lf) s.mem s'.mem) (fun _ => False) := by
  rcases hr with ⟨rfl, rfl⟩ | ⟨rfl, r, rfl, h2, rfl, h3⟩
  · exact ⟨h, .refl⟩
  · exact dec_shared (h.permL List.perm_middle) (fun hg => (h3 hg).mono fun x hx => List.mem_append_right _ hx)

/-- the handlers -/
theorem sliceCatch_out (hB : 0 < c.B) {idx : Nat} {r : Sliced} {v : Nat × Option (Node T) × Nat × Node T} {Lr : List (Ref (Val T))} {ts : List T} (hc : Cut t r v Lr) (h1 : v.2.2.2 = .leaf ts) (h2 : v.2.2.1 = ts.length)
    (h3 : ∀ n, v.2.1 = some n → Fits c l (.reg (sh.shift - c.B) (idx + 1 - v.2.2.1)) n) (h : Inv (sys c E u) s.mem O (Lr ++ L)) :
    Out (sliceCatch c E l sh idx r s) (fun s' _ => Gone c E u O L s.mem s'.mem) (fun _ => False) := by
  obtain ⟨_, e2, hor⟩ := hc
  unfold sliceCatch
  rcases hor with ⟨e3, e4, rfl⟩ | ⟨a, n, e3, e4, rfl⟩
  · rw [e3]
    refine out_bind (Q := fun s' _ => s' = s) rfl ?_
    rintro _ _ rfl
    exact decLeaf_out (r := ⟨r.2.2.2, .node v.2.2.2, t, false⟩) (by rw [h1]) (by rw [e2, h2]) h
  · rw [e3]
    refine out_bind (decV_out hB l O _ s ⟨a, .node n, t, false⟩ (.reg (sh.shift - c.B) (idx + 1 - r.2.2.1)) n rfl (by rw [e2]; exact h3 n e4) h) ?_
    intro s1 _ hg
    refine out_mono (decLeaf_out (r := ⟨r.2.2.2, .node v.2.2.2, t, false⟩) (by rw [h1]) (by rw [e2, h2]) hg.1) ?_ (fun _ h => h)
    intro s2 _ hg2
    exact Gone.trans (Kept.tail hg.2) hg2

/-- slices of a node that may not change -/
theorem sliceShared_out (hB : 0 < c.B) (hE : E.Fresh) (ht : E.gc = true → own.getD 0 = t) {collapse : Bool} {idx off : Nat} {res : Nat × Option (Node T) × Nat × Node T} (hf : Fits c (l + 1) sh N)
    (hi : idx % cap c (l + 1) < (els (l + 1) N).length) (hv : Rrb.sliceRight c collapse (l + 1) (sh.pos N) idx = some res) (h : Inv (sys c E u) s.mem O L) (ha : At (sys c E u) s.mem L p (.node N))
    (hr : Rest c E u s.mem p N mu L Lf) (hoff : sh.index c idx = some off)
    (ih : ∀ (col : Bool) (x : Node T) (sh' : Shp) (q : Nat) (v : Nat × Option (Node T) × Nat × Node T), Fits c l sh' x → idx % cap c l < (els l x).length → Rrb.sliceRight c col l (sh'.pos x) idx = some v →
      At (sys c E u) s.mem L q (.node x) → Held (sys c E u) s.mem L q →
      Out (sliceRight c E own false col l q sh' idx s) (fun s' r => ∃ Lr, Cut t r v Lr ∧ Inv (sys c E u) s'.mem O (Lr ++ L) ∧ Kept (sys c E u) O L s.mem s'.mem) (fun s' => Gone c E u O L s.mem s'.mem)) :
    Out (((liftO (sh.towards c off)).bind fun sh' => (kid p off).bind fun q =>
          if collapse ∧ off = 0 then
            (sliceRight c E own false collapse l q sh' idx).bind fun r =>
              (if mu then decRight c E l p sh 1 else M.ret ()).bind fun _ => M.ret r
          else
            (sliceRight c E own false false l q sh' idx).bind fun r =>
              (sliceNode c E own mu false collapse l p sh off r).guard (sliceCatch c E l sh idx r)) s)
      (fun s' r => ∃ Lr, Cut t r res Lr ∧ Inv (sys c E u) s'.mem O (Lr ++ Lf) ∧ Kept (sys c E u) O Lf s.mem s'.mem) (fun s' => Gone c E u O L s.mem s'.mem) := by
  obtain ⟨Ns, off', x, sh', rv, rfl, h1, h2, h3, h4, h5, h6, h7, h8⟩ := hf.slice hB hv
  rw [hoff] at h4
  cases h4
  have hin := hf.inside hB hi hoff h5
  have hlt : off < Ns.length := (List.getElem?_eq_some_iff.mp h5).1
  obtain ⟨cp, cap, Lc, hc, hd, hval, _, hx⟩ := at_inner h ha
  obtain ⟨y, hy, hyv⟩ := nth_ref hval h5
  obtain ⟨-, hya, hyh⟩ := hx y (List.mem_of_getElem? hy)
  rw [hyv] at hya
  rw [bind_ok (liftO_eq h6), bind_ok (kid_eq hc hd (by rw [List.getElem?_map, hy]; rfl))]
  rcases h8 with ⟨hcol, hres⟩ | ⟨hcol, hres, hval'⟩
  · rw [if_pos hcol]
    refine out_bind (ih collapse x sh' y.ptr res h7 hin hres hya hyh) ?_
    rintro s1 r ⟨Lr, hcut, hi1, hk1⟩
    refine out_bind (out_mono ((hr.kept hk1).decRight hi1) (fun _ _ h => h) (fun _ h => h.elim)) ?_
    intro s2 _ hg
    exact ⟨Lr, hcut, hg.1, (hk1.mono hr.sub (fun _ h => h)).trans (hg.2.mono (fun x hx => List.mem_append_right _ hx) (fun _ h => h))⟩
  · rw [if_neg hcol]
    obtain ⟨ts, t1, t2, t3⟩ := h7.sliceOk hB hin hres
    refine out_bind (ih false x sh' y.ptr rv h7 hin hres hya hyh) ?_
    rintro s1 r ⟨Lr, hcut, hi1, hk1⟩
    refine out_guard (E' := fun s' => s'.mem = s1.mem) ?_ ?_
    · have ha1 := ha.kept hk1
      have hr1 := hr.kept hk1
      have fin : ∀ {s' : St Dat T} {X : List (Ref (Val T))}, Kept (sys c E u) O L s1.mem s'.mem → ∀ {m'' : Mem Dat T}, Kept (sys c E u) O (X ++ Lf) s'.mem m'' → Kept (sys c E u) O Lf s.mem m'' := by
        intro s' X hk m'' hk'
        exact ((hk1.trans hk).mono hr.sub (fun _ h => h)).trans (hk'.mono (fun x hx => List.mem_append_right _ hx) (fun _ h => h))
      obtain ⟨c1, c2, hor⟩ := hcut
      unfold sliceNode
      unfold sliceVal at hval'
      rcases hor with ⟨e3, e4, rfl⟩ | ⟨a, nx, e3, e4, rfl⟩
      · rw [e4] at hval'
        rw [e3]
        simp only at hval' ⊢
        by_cases h0 : off = 0
        · rw [if_pos h0] at hval' ⊢
          cases hval'
          refine out_bind (out_mono (hr1.decRight hi1) (fun _ _ h => h) (fun _ h => h.elim)) ?_
          intro s2 _ hg
          exact ⟨_, ⟨h3, c2, .inl ⟨rfl, rfl, rfl⟩⟩, hg.1, fin (s' := s1) .refl hg.2⟩
        rw [if_neg h0] at hval' ⊢
        by_cases hcc : collapse = true ∧ off = 1 ∧ c.BL < c.BL + c.B * l
        · rw [if_pos hcc] at hval'
          rw [if_pos (by rw [h3]; exact hcc)]
          obtain ⟨x0, hx0⟩ : ∃ x0, Ns[0]? = some x0 := ⟨_, List.getElem?_eq_getElem (by omega)⟩
          rw [hx0] at hval'
          cases hval'
          obtain ⟨cp', cap', Lc', hc', hd', hval1, _, hx'⟩ := at_inner hi1 (At.mono (fun x hx => List.mem_append_right _ hx) ha1)
          obtain ⟨z, hz, hzv⟩ := nth_ref hval1 hx0
          obtain ⟨hzu, hza, hzh⟩ := hx' z (List.mem_of_getElem? hz)
          rw [bind_ok (kid_eq hc' hd' (by rw [List.getElem?_map, hz]; rfl))]
          obtain ⟨cz, hcz⟩ := hi1.reach_cell hza.reach
          simp only [Bool.false_eq_true, if_false]
          rw [bind_ok (inc_eq hcz)]
          obtain ⟨hi2, hk2, _⟩ := dup_refs hi1 (Lc := [z]) (by
            intro w hw
            rw [List.mem_singleton] at hw
            subst hw
            exact ⟨hzu, hza, hzh⟩) t
          have hk2' : Kept (sys c E u) O L s1.mem (incs E.gc s1.mem [z.ptr]) := hk2.mono (fun x hx => List.mem_append_right _ hx) (fun _ h => h)
          refine out_bind (out_mono (Rest.decRight (s := { s1 with mem := incs E.gc s1.mem [z.ptr] }) (X := [⟨z.ptr, z.val, t, z.uniq⟩, ⟨r.2.2.2, .node rv.2.2.2, t, false⟩]) (hr1.kept hk2') hi2) (fun _ _ h => h) (fun _ h => h.elim)) ?_
          intro s3 _ hg
          rw [hzv, hzu] at hg
          refine ⟨_, ⟨?_, c2, .inr ⟨z.ptr, x0, rfl, rfl, rfl⟩⟩, hg.1, fin hk2' hg.2⟩
          rw [h3]
        · rw [if_neg hcc] at hval'
          rw [if_neg (by rw [h3]; exact hcc)]
          cases hval'
          simp only [Bool.false_eq_true, if_false]
          refine out_bind (newInner_out hE hi1) ?_
          rintro s2 n ⟨hn, hs2⟩
          have hop := Op.new hi1 hn off own
          rw [← hs2] at hop
          have hk2 : Kept (sys c E u) O ([⟨r.2.2.2, .node rv.2.2.2, t, false⟩] ++ L) s1.mem s2.mem := by rw [hs2]; exact Kept.new hi1 hn _
          have hcap : off ≤ capI c E own off := capI_le (by omega)
          refine out_bind (out_mono (copyInner_out (n := off) hop (At.mono (fun x hx => List.mem_append_right _ hx) (ha1.kept (hk2.mono (fun x hx => List.mem_append_right _ hx) (fun _ h => h)))) (by omega) hcap) (fun _ _ h => h) (fun _ h => h.elim)) ?_
          rintro s3 _ ⟨cl', Lc', htk, hop3, hk3⟩
          have hcl := VecHeap.retok (hop3.close (t := t) (fun hg => by rw [htk]; show tk E own = _; rw [tk_gc hg]; exact ht hg)) (fun _ => rfl) false (fun h => by cases h)
          have hk3' : Kept (sys c E u) O L s1.mem s3.mem := (hk2.trans hk3).mono (fun x hx => List.mem_append_right _ hx) (fun _ h => h)
          refine out_bind (out_mono (Rest.decV (X := [⟨n, _, t, false⟩, ⟨r.2.2.2, .node rv.2.2.2, t, false⟩]) hB (hr1.kept hk3') hf hcl) (fun _ _ h => h) (fun _ h => h.elim)) ?_
          intro s4 _ hg
          exact ⟨_, ⟨h3, c2, .inr ⟨n, _, rfl, rfl, rfl⟩⟩, hg.1, fin hk3' hg.2⟩
      · rw [e4] at hval'
        rw [e3]
        simp only [Bool.false_eq_true, if_false] at hval' ⊢
        cases hval'
        refine out_bind (newInner_out hE hi1) ?_
        rintro s2 n ⟨hn, hs2⟩
        have hop := Op.new hi1 hn (off + 1) own
        rw [← hs2] at hop
        have hsub : ∀ x ∈ L, x ∈ [(⟨a, .node nx, t, false⟩ : Ref (Val T)), ⟨r.2.2.2, .node rv.2.2.2, t, false⟩] ++ L := fun x hx => List.mem_append_right _ hx
        have hk2 : Kept (sys c E u) O ([⟨a, .node nx, t, false⟩, ⟨r.2.2.2, .node rv.2.2.2, t, false⟩] ++ L) s1.mem s2.mem := by rw [hs2]; exact Kept.new hi1 hn _
        have hcap : off + 1 ≤ capI c E own (off + 1) := capI_le (by omega)
        refine out_bind (out_mono (copyInner_out (n := off) hop (At.mono hsub (ha1.kept (hk2.mono hsub (fun _ h => h)))) (by omega) (by omega)) (fun _ _ h => h) (fun _ h => h.elim)) ?_
        rintro s3 _ ⟨cl', Lc', htk, hop3, hk3⟩
        have hl3 := hop3.length
        rw [List.length_take] at hl3
        obtain ⟨cl4, he, htk4, hop4, hk4⟩ := Op.push (L := ⟨r.2.2.2, .node rv.2.2.2, t, false⟩ :: L) (n := off) hop3 rfl (fun hg => by
          rw [htk]; show t = tk E own; rw [tk_gc hg]; exact (ht hg).symm) (by omega) (by omega)
        rw [bind_ok he]
        have hcl := VecHeap.retok (hop4.close (t := t) (fun hg => by rw [htk4, htk]; show tk E own = _; rw [tk_gc hg]; exact ht hg)) (fun _ => rfl) false (fun h => by cases h)
        have hk4' : Kept (sys c E u) O L s1.mem (upd s3.mem n (some cl4)) := ((hk2.trans hk3).trans hk4).mono hsub (fun _ h => h)
        refine out_bind (out_mono (Rest.decV (s := { s3 with mem := upd s3.mem n (some cl4) }) (X := [⟨n, _, t, false⟩, ⟨r.2.2.2, .node rv.2.2.2, t, false⟩]) hB (hr1.kept hk4') hf hcl) (fun _ _ h => h) (fun _ h => h.elim)) ?_
        intro s4 _ hg
        exact ⟨_, ⟨h3, c2, .inr ⟨n, _, rfl, rfl, rfl⟩⟩, hg.1, fin (s' := { s3 with mem := upd s3.mem n (some cl4) }) hk4' hg.2⟩
    · intro s2 hs2
      refine out_mono (sliceCatch_out hB hcut t1 t2 (by rw [h3]; exact t3) (by rw [hs2]; exact hi1)) ?_ (fun _ h => h)
      intro s3 _ hg
      exact Gone.trans hk1 (by rw [← hs2]; exact hg)

/-- `slice_right_visitor`, also of the visitor that mutates for nodes of others -/
theorem sliceNew_out (hB : 0 < c.B) (hE : E.Fresh) (ht : E.gc = true → own.getD 0 = t) : ∀ (l : Nat) (collapse : Bool) (s : St Dat T) (p : Nat) (sh : Shp) (N : Node T) (idx : Nat)
    (res : Nat × Option (Node T) × Nat × Node T), Fits c l sh N → idx % cap c l < (els l N).length → Rrb.sliceRight c collapse l (sh.pos N) idx = some res → Inv (sys c E u) s.mem O L →
    At (sys c E u) s.mem L p (.node N) → (l = 0 → Held (sys c E u) s.mem L p) →
    Out (sliceRight c E own false collapse l p sh idx s) (fun s' r => ∃ Lr, Cut t r res Lr ∧ Inv (sys c E u) s'.mem O (Lr ++ L) ∧ Kept (sys c E u) O L s.mem s'.mem) (fun s' => Gone c E u O L s.mem s'.mem)
  | 0, collapse, s, p, sh, N, idx, res, hf, hi, hv, h, ha, hh => by
    obtain ⟨xs, i, rfl, h1, h2, h3, h4, h5, rfl⟩ := hf.sliceLeaf hv
    unfold sliceRight
    rw [if_pos h1, bind_ok (liftO_eq h4)]
    have hm : mayMutate E own false p s = .ok s false := by
      unfold mayMutate
      cases own <;> rfl
    rw [bind_ok hm, h2]
    by_cases hl : i + 1 = xs.length
    · rw [if_pos hl]
      simp only [Bool.false_eq_true, if_false]
      obtain ⟨cl, hc⟩ := h.reach_cell ha.reach
      rw [bind_ok (inc_eq hc)]
      obtain ⟨hi2, hk2, _⟩ := dup_refs h (Lc := [⟨p, .node (.leaf xs), t, false⟩]) (by
        intro w hw
        rw [List.mem_singleton] at hw
        subst hw
        exact ⟨rfl, ha, hh rfl⟩) t
      refine ⟨_, ⟨rfl, rfl, .inl ⟨rfl, rfl, rfl⟩⟩, ?_, hk2⟩
      rw [hl, List.take_length]
      exact hi2
    · rw [if_neg hl]
      simp only [Bool.false_eq_true, if_false]
      refine out_bind (copyLeaf_out hE h ha (n := i + 1) h5 (by omega) ht) ?_
      rintro s1 q ⟨hi1, hk1⟩
      exact ⟨_, ⟨rfl, rfl, .inl ⟨rfl, rfl, rfl⟩⟩, VecHeap.retok hi1 (fun _ => rfl) false (fun h => by cases h), hk1⟩
  | l + 1, collapse, s, p, sh, N, idx, res, hf, hi, hv, h, ha, hh => by
    obtain ⟨_, off, _, _, _, _, _, _, _, h4, _⟩ := hf.slice hB hv
    unfold sliceRight
    rw [bind_ok (liftO_eq h4)]
    have hm : mayMutate E own false p s = .ok s false := by
      unfold mayMutate
      cases own <;> rfl
    rw [bind_ok hm]
    refine sliceShared_out hB hE ht hf hi hv h ha (.inl ⟨rfl, rfl⟩) h4 ?_
    intro col x sh' q v a1 a2 a3 a4 a5
    exact sliceNew_out hB hE ht l col s q sh' x idx v a1 a2 a3 h a4 (fun _ => a5)

end
end VecHeap
