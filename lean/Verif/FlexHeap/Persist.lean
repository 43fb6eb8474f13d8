import Verif.FlexHeap.Build
import Verif.VecHeap.Ops

/-!
# Visitors of flexible vectors that make new trees
-/

namespace FlexHeap
open Mm Rrb VecHeap

variable {T : Type} {c : Cfg} {E : Env Dat T} {u : Toks E.gc} {O : List Nat} {L : List (Ref (Val T))}

section
variable {s : St Dat T} {m m' : Mem Dat T} {p q n i t l e : Nat} {N R X : Node T} {Ns : List (Node T)} {ks sz ss : List Nat} {cl ct : Cell Dat T} {r tr : Ref (Val T)} {own : Option Nat} {cap capT : Nat}
  {rel : Option Nat} {Lo : List (Ref (Val T))} {rs : Option (List Nat)} {idx : Nat}

theorem scan_ge {idx : Nat} : ∀ {ls : List Nat} {o k : Nat}, Pos.scan idx ls o = some k → k < o + ls.length
  | [], o, k, h => by cases h
  | x :: ls, o, k, h => by
    unfold Pos.scan at h
    split at h
    · have := scan_ge h
      simp only [List.length_cons]
      omega
    · cases h
      simp

theorem RFits.index_lt (h : (RShp.rel i sz).index c idx = some n) : n < sz.length := by
  have h : Pos.scan idx (sz.drop (idx >>> i)) (idx >>> i) = some n := h
  rcases Nat.lt_or_ge (idx >>> i) sz.length with h1 | h1
  · have := scan_ge h
    rw [List.length_drop] at this
    omega
  · rw [List.drop_of_length_le h1] at h
    cases h

/-- a step of `update_visitor` on values -/
theorem RFits.upd (hB : 0 < c.B) {f : T → T} (h : RFits c (l + 1) (.rel i sz) N) (hv : Rrb.updateV c f (l + 1) (.rel N i sz) idx = some R) : ∃ Ns off x R', N = .inner (some sz) Ns ∧
    i = c.BL + c.B * l ∧ Ns.length ≤ 2 ^ c.B ∧ (∀ x ∈ Ns, WF c l x) ∧ sz = psums 0 (Ns.map fun x => (els l x).length) ∧ sz.length = Ns.length ∧
    (RShp.rel i sz).index c idx = some off ∧ Ns[off]? = some x ∧ Rrb.updateV c f l ((kidSh c (c.BL + c.B * l) (els l x).length x).pos x) (idx - before l Ns off) = some R' ∧ R = .inner (some sz) (Ns.set off R') := by
  obtain ⟨Ns, rfl, rfl, h1, h2, h3, h4⟩ := h.rel
  have hlen : sz.length = Ns.length := by rw [h4, psums_length, List.length_map]
  simp only [Rrb.updateV, Option.bind_eq_bind, Option.bind_eq_some_iff] at hv
  obtain ⟨off, ho, ⟨q, j⟩, hq, R', hR', cs, hcs, ks, hks, hR⟩ := hv
  have ho : (RShp.rel (c.BL + c.B * l) sz).index c idx = some off := ho
  have hoff := RFits.index_lt ho
  have hx : Ns[off]? = some (Ns[off]'(by omega)) := List.getElem?_eq_getElem (by omega)
  have hw := h3 _ (List.mem_of_getElem? hx)
  rw [towardsOh_eq hB hx hw h4] at hq
  cases hq
  cases hcs
  have hks : slice Ns 0 sz.length = some ks := hks
  rw [hlen, slice_all rfl] at hks
  cases hks
  refine ⟨Ns, off, _, R', rfl, rfl, h2, h3, h4, hlen, ho, hx, hR', ?_⟩
  split at hR
  · have hR : mkInnerR c sz (Ns.set off R') = some R := hR
    unfold mkInnerR at hR
    rw [if_pos (by simpa using h2)] at hR
    cases hR
    rfl
  · cases hR

/-- the child towards an index, read from memory -/
theorem relTowards_at (hB : 0 < c.B) {off : Nat} {x : Node T} (h : Inv (sys c E u) s.mem O L) (ha : At (sys c E u) s.mem L p (.node (.inner (some sz) Ns))) (hx : Ns[off]? = some x) (hw : WF c l x)
    (hsz : sz = psums 0 (Ns.map (fun x => (els l x).length))) :
    ∃ q, relTowards c p (c.BL + c.B * l) sz idx off s = .ok s (q, kidSh c (c.BL + c.B * l) (els l x).length x, idx - before l Ns off) ∧ At (sys c E u) s.mem L q (.node x) ∧ Held (sys c E u) s.mem L q := by
  obtain ⟨cp, cap, t, Lc, hc, hd, hval, _, hk, _⟩ := at_innerR h ha
  obtain ⟨y, hy, hyv⟩ := nth_ref hval hx
  have hya := (hk y (List.mem_of_getElem? hy)).2
  rw [hyv] at hya
  exact ⟨y.ptr, relTowards_eq hB hc hd (by rw [List.getElem?_map, hy]; rfl) hx hw hya.1.den hsz, hya⟩

/-- `update_visitor` -/
theorem updateR_out (hB : 0 < c.B) (hE : E.Fresh) (user : Bool) (f : T → T) : ∀ (l : Nat) (O : List Nat) (L : List (Ref (Val T))) (s : St Dat T) (p : Nat) (sh : RShp) (N : Node T) (idx : Nat) (R : Node T), RFits c l sh N →
    Rrb.updateV c f l (sh.pos N) idx = some R → Inv (sys c E u) s.mem O L → At (sys c E u) s.mem L p (.node N) →
    Out (updateR c E user f l p sh idx s) (fun s' q => Inv (sys c E u) s'.mem O (⟨q, .node R, 0, true⟩ :: L) ∧ Kept (sys c E u) O L s.mem s'.mem) (fun s' => Gone c E u O L s.mem s'.mem)
  | l, O, L, s, p, .reg sh, N, idx, R, hf, hv, h, ha => by
    have := updateV_out hB hE user f l O s p sh N idx R hf hv h ha
    cases l <;> exact this
  | 0, O, L, s, p, .rel i sz, N, idx, R, hf, hv, h, ha => hf.rel0.elim
  | l + 1, O, L, s, p, .rel i sz, N, idx, R, hf, hv, h, ha => by
    obtain ⟨Ns, off, x, R', rfl, rfl, h1, h2, h3, h4, h5, h6, h7, rfl⟩ := hf.upd hB hv
    have hw := h2 x (List.mem_of_getElem? h6)
    unfold updateR
    obtain ⟨cp, cap, t, Lc, hc, hd, _, _, _, hta, hth⟩ := at_innerR h ha
    rw [bind_ok (liftO_eq h5), bind_ok (theTable_eq hc hd)]
    refine out_bind (out_mono (newInnerSr_out hE h hta hth) (fun _ _ h => h) (fun _ he => gone_of_eq h he)) ?_
    rintro s1 n ⟨cl, hop, htk, hk1, hn⟩
    rw [tk_none] at hop htk
    have hi1 : Inv (sys c E u) s1.mem (n :: O) (⟨t, .table sz, 0, false⟩ :: L) := hop.inv
    have ha1 := ha.kept hk1
    refine out_bind (out_guard (E := fun s' => Gone c E u O L s.mem s'.mem) (E' := fun s' => Gone c E u (n :: O) (⟨t, .table sz, 0, false⟩ :: L) s1.mem s'.mem)
      (Q := fun s' q => Inv (sys c E u) s'.mem (n :: O) (⟨q, .node R', 0, true⟩ :: ⟨t, .table sz, 0, false⟩ :: L) ∧ Kept (sys c E u) (n :: O) (⟨t, .table sz, 0, false⟩ :: L) s1.mem s'.mem) ?_ ?_) ?_
    · have ha1' := At.mono (L' := ⟨t, .table sz, 0, false⟩ :: L) (fun x hx => List.mem_cons_of_mem _ hx) ha1
      obtain ⟨q, hq, hqa, _⟩ := relTowards_at (idx := idx) hB hi1 ha1' h6 hw h3
      rw [bind_ok hq]
      exact updateR_out hB hE user f l (n :: O) _ s1 q _ x _ R' (kidSh_fits hB hw rfl) h7 hi1 hqa
    · intro s2 hg
      have hop2 := hop.mem (O' := O) (L' := ⟨t, .table sz, 0, false⟩ :: L) hg.1 (hg.2.2 n List.mem_cons_self)
      refine out_mono (freeInnerR_ref (own := none) (tr := ⟨t, .table sz, 0, false⟩) (n := sz.length) hop2 rfl (by rw [tk_none]; exact htk) rfl) ?_ (fun _ h => h)
      intro s3 _ hg3
      exact Gone.trans (hk1.trans (Kept.tail (Kept.open hg.2))) hg3
    · rintro s2 q ⟨hi, hk⟩
      have hop2 := hop.mem (O' := O) (L' := ⟨q, .node R', 0, true⟩ :: ⟨t, .table sz, 0, false⟩ :: L) hi (hk.2 n List.mem_cons_self)
      have ha2 := (At.mono (L' := ⟨t, .table sz, 0, false⟩ :: L) (fun x hx => List.mem_cons_of_mem _ hx) ha1).kept hk
      refine out_bind (out_mono (copyReplaceG_out (r := ⟨q, .node R', 0, true⟩) (off := off) hop2 ha2 rfl (fun _ => htk.symm) h4 (by rw [h4]; exact capI_le h1) (RFits.index_lt h5)) (fun _ _ h => h) (fun _ h => h.elim)) ?_
      rintro s3 _ ⟨cl', Lc', htk', hop3, hk3⟩
      refine ⟨OpG.closeR (tr := ⟨t, .table sz, 0, false⟩) hop3 rfl (fun _ _ _ => by rw [htk', htk]) (fun _ => htk'.trans htk), ?_⟩
      exact (hk1.trans (Kept.tail (Kept.open hk))).trans (Kept.tail hk3)

/-! ### Pushing a tail -/

theorem Inv.out_live {a o : Nat} {ca co : Cell Dat T} (h : Inv (sys c E u) m O L) (ha : Reach (sys c E u) m L a) (hca : m a = some ca) (ho : o ∈ outsD ca.data) (hco : m o = some co) (hl : u.live co.tok) :
    co.tok = ca.tok := by
  obtain ⟨A, J, g, _, h⟩ := h
  exact h.outTok a (h.reach ha) ca hca o ho co hco hl

/-- under the collector: what an owner has is reached by one path, which may be opened -/
theorem live_path (hg : E.gc = true) {a : Nat} (hf : From (sys c E u) m a p) : ∀ {r : Ref (Val T)}, r.ptr = a → Inv (sys c E u) m O (r :: L) → ∀ {cp : Cell Dat T}, m p = some cp → u.live cp.tok →
    ∃ v, Inv (sys c E u) m O (⟨p, v, cp.tok, false⟩ :: L) := by
  induction hf with
  | here =>
    rintro r rfl h cp hcp hl
    refine ⟨r.val, h.weaken ?_ (fun h => by cases h)⟩
    intro c' hc' _
    rw [hcp] at hc'
    cases hc'
    rfl
  | @next b o cb h1 hcb ho ih =>
    intro r hr h cp hcp hl
    have htk := Inv.out_live h ⟨r, List.mem_cons_self, by rw [hr]; exact h1⟩ hcb ho hcp hl
    obtain ⟨v, hv⟩ := ih hr h hcb (htk ▸ hl)
    obtain ⟨Lo, e1, _, e3, hi⟩ := hv.open_ hcb (.inr (.inl (htk ▸ hl)))
    have hi := hi.forget hg
    have ho : o ∈ (sys c E u).outs cb.data := ho
    rw [e1] at ho
    obtain ⟨x, hx, rfl⟩ := List.mem_map.mp ho
    obtain ⟨A, B, rfl⟩ := List.append_of_mem hx
    have hp : (A ++ x :: B ++ L).Perm ((A ++ B) ++ (x :: L)) := by
      simp only [List.append_assoc, List.cons_append]
      refine List.Perm.append_left _ ?_
      exact (List.perm_middle (l₁ := B)).symm
    have hi := drop_gc hg (hi.permL hp)
    refine ⟨x.val, hi.weaken ?_ (fun h => by cases h)⟩
    intro c' hc' _
    rw [hcp] at hc'
    cases hc'
    rfl

/-- under the collector releasing does nothing -/
theorem decInner_gc (hg : E.gc = true) {size : Nat} (hr : r.val = .node N) (hw : WF c (l + 1) N) (h : Inv (sys c E u) s.mem O (r :: L)) : decInner c E (l + 1) r.ptr i size s = .ok s () := by
  have hden := h.den (r := r) List.mem_cons_self
  rw [hr] at hden
  obtain ⟨cl, _, hc, _⟩ := h.look (r := r) List.mem_cons_self
  unfold decInner
  rw [bind_ok (maybeRel_wf hden hw)]
  generalize subSh i size N = sh
  cases sh with
  | reg sh =>
    unfold decR decV
    rw [bind_ok (dec_gc hg hc)]; rfl
  | rel i sz =>
    unfold decR
    rw [bind_ok (dec_gc hg hc)]; rfl

/-- the tail is below the node `ch` -/
structure Below (c : Cfg) (E : Env Dat T) (u : Toks E.gc) (m : Mem Dat T) (rt : Ref (Val T)) (ch : Nat) : Prop where
  path : From (sys c E u) m ch rt.ptr
  den : Den (sys c E u) m rt.ptr rt.val
  tok : ∀ cl, m rt.ptr = some cl → u.live cl.tok → cl.tok = rt.tok

theorem Below.of {rt : Ref (Val T)} (h : Inv (sys c E u) m O (rt :: L)) (hk : Kept (sys c E u) O (rt :: L) m m') (hf : From (sys c E u) m' q rt.ptr) : Below c E u m' rt q where
  path := hf
  den := (h.den List.mem_cons_self).same fun x hx => hk.1 x ⟨rt, List.mem_cons_self, hx⟩
  tok := by
    intro cl hc hl
    obtain ⟨c0, _, hc0, _, _, ht, _⟩ := h.look (r := rt) List.mem_cons_self
    obtain ⟨c1, hc1, hs⟩ := hk.1 rt.ptr ⟨rt, List.mem_cons_self, .here⟩ c0 hc0
    rw [hc] at hc1
    cases hc1
    have hs2 : cl.tok = c0.tok := hs.2.2
    rw [hs2]
    exact ht (by rw [← hs2]; exact hl)

/-- the handler of `push_tail_visitor`: the tail is there again -/
theorem pushCatch_out (hB : 0 < c.B) {rt : Ref (Val T)} {xs : List T} {ch ts idx children ni : Nat} (hu : rt.uniq = false) (hrt : rt.val = .node (.leaf xs))
    (h : Inv (sys c E u) s.mem O (⟨ch, .node X, rt.tok, false⟩ :: L)) (hb : Below c E u s.mem rt ch) (hX : WF c l X) (hs : (if ni = idx then children + ts else ts) = (els l X).length) :
    Out (pushCatch c E rt.ptr ts l (c.BL + c.B * l) idx children ni ch s) (fun s' _ => Gone c E u O (rt :: L) s.mem s'.mem) (fun _ => False) := by
  have hdch := h.den (r := ⟨ch, .node X, rt.tok, false⟩) List.mem_cons_self
  unfold pushCatch
  cases l with
  | zero =>
    rw [if_neg (by simp)]
    obtain ⟨ys, rfl, _⟩ : ∃ ys, X = .leaf ys ∧ True := by
      cases X with
      | leaf ys => exact ⟨ys, rfl, trivial⟩
      | inner => cases hX
    have he : rt.ptr = ch := by
      rcases From.head hb.path with h1 | ⟨cc, o, h1, h2, _⟩
      · exact h1
      · exfalso
        obtain ⟨cl, vs, hc, _, hok, _⟩ := h.look (r := ⟨ch, .node (.leaf ys), rt.tok, false⟩) List.mem_cons_self
        have hc : s.mem ch = some cl := hc
        rw [h1] at hc
        cases hc
        obtain ⟨hd, _⟩ := okD_leaf hok
        have h2 : o ∈ outsD cc.data := h2
        rw [hd] at h2
        cases h2
    have hv : rt.val = .node (.leaf ys) := by
      have := hb.den
      rw [he] at this
      exact this.unique (ranked c E u) hdch
    have : rt = ⟨ch, .node (.leaf ys), rt.tok, false⟩ := by rw [← he, ← hv, ← hu]
    rw [this]
    exact ⟨h, .refl⟩
  | succ l =>
    have hsh : c.BL + c.B * (l + 1) - c.B = c.BL + c.B * l := shift_sub l
    rw [if_pos (by rw [Nat.mul_succ]; omega), hsh, hs]
    have hne : rt.ptr ≠ ch := by
      intro he
      have := hb.den
      rw [he] at this
      have := this.unique (ranked c E u) hdch
      rw [hrt] at this
      cases this
      cases hX
    obtain ⟨ct, hct⟩ : ∃ ct, s.mem rt.ptr = some ct := by
      obtain ⟨ct, _, hct, _⟩ := hb.den.cell
      exact ⟨ct, hct⟩
    by_cases hl : u.live ct.tok
    · have hg := live_gc hl
      have hinc : inc E rt.ptr s = .ok s () := by
        rw [inc_eq hct]
        unfold incs
        rw [hg]
        rfl
      rw [bind_ok hinc, decInner_gc hg (r := ⟨ch, .node X, rt.tok, false⟩) rfl hX h]
      obtain ⟨v, hv⟩ := live_path hg hb.path (r := ⟨ch, .node X, rt.tok, false⟩) rfl h hct hl
      have hvv := (hv.den List.mem_cons_self).unique (ranked c E u) hb.den
      have hrt' : rt = ⟨rt.ptr, v, ct.tok, false⟩ := by
        rw [hb.tok ct hct hl]
        have : v = rt.val := hvv
        rw [this, ← hu]
      rw [hrt']
      exact ⟨hv, .refl⟩
    · have ha : At (sys c E u) s.mem (⟨ch, .node X, rt.tok, false⟩ :: L) rt.ptr rt.val := ⟨⟨_, List.mem_cons_self, hb.path⟩, hb.den, fun c' hc' => by rw [hct] at hc'; cases hc'; exact hl⟩
      have hh : Held (sys c E u) s.mem (⟨ch, .node X, rt.tok, false⟩ :: L) rt.ptr := by
        obtain ⟨a, ca, h1, h2, h3⟩ := From.last hb.path hne
        exact ⟨a, ca, ⟨_, List.mem_cons_self, h1⟩, h2, h3⟩
      have hrt' : (⟨rt.ptr, rt.val, rt.tok, false⟩ : Ref (Val T)) = rt := by rw [← hu]
      refine out_bind (inc_ref h ha hh rt.tok) ?_
      rintro s1 _ ⟨hi1, hk1⟩
      rw [hrt'] at hi1
      refine out_mono (decInner_out (r := ⟨ch, .node X, rt.tok, false⟩) (L := rt :: L) hB rfl hX rfl (hi1.permL (List.Perm.swap _ _ _))) ?_ (fun _ h => h)
      intro s2 _ hg2
      exact Gone.trans (Kept.from hk1 hb.path) hg2

/-- the copy with the new child -/
theorem pushCopy_out (hE : E.Fresh) {k ch ts ni tot : Nat} (h : Inv (sys c E u) s.mem O (⟨ch, .node X, k, false⟩ :: L)) (ha : At (sys c E u) s.mem L p (.node (.inner (some sz) Ns))) (hlen : sz.length = Ns.length)
    (hni : ni ≤ Ns.length) (hni2 : ni + 1 ≤ 2 ^ c.B) (htot : sz[sz.length - 1]? = some tot) (hk : E.gc = true → own.getD 0 = k) :
    Out (pushCopy c E own p sz ts ni ch s) (fun s' q => Inv (sys c E u) s'.mem O (⟨q, .node (.inner (some (sz.take ni ++ [tot + ts])) (Ns.take ni ++ [X])), k, false⟩ :: L) ∧
      Kept (sys c E u) O (⟨ch, .node X, k, false⟩ :: L) s.mem s'.mem ∧ From (sys c E u) s'.mem q ch ∧ s.mem q = none) (fun s' => s'.mem = s.mem) := by
  unfold pushCopy
  refine out_bind (newInnerR_out hE h) ?_
  rintro s1 n ⟨t, cl, ct, hop, hT, htk, htk', hk1, hn⟩
  have hcap : ni + 1 ≤ capI c E own (ni + 1) := capI_le hni2
  have ha1 := (At.mono (L' := ⟨ch, .node X, k, false⟩ :: L) (fun x hx => List.mem_cons_of_mem _ hx) ha).kept hk1
  refine out_bind (out_mono (copyInnerR_out hop hT ha1 hni hlen (by omega) (by omega)) (fun _ _ h => h) (fun _ h => h.elim)) ?_
  rintro s2 _ ⟨cl2, ct2, Lc, e1, e2, hop2, hT2, hk2⟩
  have hl2 := hop2.length
  rw [List.length_take, Nat.min_eq_left hni] at hl2
  rw [bind_ok (theTable_eq hop2.cell hop2.data)]
  obtain ⟨cl3, he3, e3, hop3, hk3⟩ := hop2.push (r := ⟨ch, .node X, k, false⟩) (n := ni) (N := X) rfl (fun hg => by rw [e1, htk, tk_gc hg]; exact (hk hg).symm) (by omega) hl2.symm
  rw [bind_ok he3, bind_ok (liftO_eq htot)]
  have hT3 : Tb c E (upd s2.mem n (some cl3)) t ct2 (capI c E own (ni + 1)) (sz.take ni) := hT2.mem (upd_ne (Ne.symm hop2.ne))
  rw [bind_ok (sizesOf_eq (st := { s2 with mem := upd s2.mem n (some cl3) }) hT3.cell hT3.data)]
  have hlt : (sz.take ni ++ [tot + ts]).length ≤ capI c E own (ni + 1) := by
    rw [List.length_append, List.length_take, List.length_singleton]
    omega
  rw [bind_ok (setSizes_eq (st := { s2 with mem := upd s2.mem n (some cl3) }) hT3.cell hT3.data hlt)]
  obtain ⟨hop4, hk4⟩ := hop3.sizes { ct2 with data := .table (capI c E own (ni + 1)) (sz.take ni ++ [tot + ts]) }
  have hT4 := hT3.set (m' := upd s2.mem n (some cl3)) hlt
  refine ⟨?_, ?_, ?_, hn⟩
  · have := OpG.closeT hop4 hT4 (k := k) (fun _ => by show ct2.tok = _; rw [e2, htk', e3, e1, htk]) (fun hg => by rw [e3, e1, htk, tk_gc hg]; exact hk hg)
    exact VecHeap.retok this (fun _ => rfl) false (fun h => by cases h)
  · refine (hk1.trans hk2).trans ?_
    refine (Kept.open hk3).trans ?_
    obtain ⟨_, hk5⟩ := (hop3.mem (O' := t :: O) (L' := L) hop3.inv rfl).sizes { ct2 with data := .table (capI c E own (ni + 1)) (sz.take ni ++ [tot + ts]) }
    have hin := Kept.upd (O := O) hop3.inv (a := t) (.inl (List.mem_cons_of_mem _ List.mem_cons_self)) (by
      have := hop3.inv.open_nodup
      simp at this
      exact this.2.1) (some { ct2 with data := .table (capI c E own (ni + 1)) (sz.take ni ++ [tot + ts]) })
    refine hin.mono ?_ (fun _ h => h)
    intro x hx
    rcases List.mem_cons.mp hx with rfl | hx
    · simp
    · simp [hx]
  · exact hop4.from (r := ⟨ch, .node X, k, false⟩) (by simp)

/-- a step of `push_tail_visitor` on values -/
theorem RFits.push (hB : 0 < c.B) {Nt : Node T} {ts : Nat} {ro : Option (Node T)} (h : RFits c (l + 1) (.rel i sz) N) (hv : pushTail c Nt ts (l + 1) (.rel N i sz) = some ro) :
    ∃ Ns e, N = .inner (some sz) Ns ∧ i = c.BL + c.B * l ∧ Ns ≠ [] ∧ Ns.length ≤ 2 ^ c.B ∧ (∀ x ∈ Ns, WF c l x) ∧ sz = psums 0 (Ns.map fun x => (els l x).length) ∧ sz.length = Ns.length ∧
      Ns[Ns.length - 1]? = some e ∧ sz[sz.length - 1]? = some (els (l + 1) N).length ∧ 
      ((pushIdx c i sz = some (Ns.length, (els l e).length) ∧ ((2 ^ c.B ≤ Ns.length ∧ ro = none) ∨
          (Ns.length + 1 ≤ 2 ^ c.B ∧ ro = some (.inner (some (sz.take Ns.length ++ [(els (l + 1) N).length + ts])) (Ns.take Ns.length ++ [mkPath l Nt]))))) ∨
       (∃ l' r', l = l' + 1 ∧ pushIdx c i sz = some (Ns.length - 1, (els l e).length) ∧ (els l e).length < Rrb.cap c l ∧ pushTail c Nt ts l ((kidSh c (c.BL + c.B * l) (els l e).length e).pos e) = some r' ∧
          ((∃ X, r' = some X ∧ ro = some (.inner (some (sz.take (Ns.length - 1) ++ [(els (l + 1) N).length + ts])) (Ns.take (Ns.length - 1) ++ [X]))) ∨
           (r' = none ∧ Ns.length + 1 ≤ 2 ^ c.B ∧ ro = some (.inner (some (sz.take Ns.length ++ [(els (l + 1) N).length + ts])) (Ns.take Ns.length ++ [mkPath l Nt]))) ∨
           (r' = none ∧ 2 ^ c.B < Ns.length + 1 ∧ ro = none)))) := by
  obtain ⟨Ns, rfl, rfl, h1, h2, h3, h4⟩ := h.rel
  have hlen : sz.length = Ns.length := by rw [h4, psums_length, List.length_map]
  have hpos : 0 < Ns.length := List.length_pos_iff.mpr h1
  have he : Ns[Ns.length - 1]? = some (Ns[Ns.length - 1]'(by omega)) := List.getElem?_eq_getElem (by omega)
  generalize Ns[Ns.length - 1]'(by omega) = e at he
  have hw := h3 e (List.mem_of_getElem? he)
  have hsa : (Pos.rel (.inner (some sz) Ns) (c.BL + c.B * l) sz).sizeAt (Ns.length - 1) = some (els l e).length := by
    rw [h4]
    exact sizeAt_rel he
  have hss : (Pos.rel (.inner (some sz) Ns) (c.BL + c.B * l) sz).size c = some (els (l + 1) (.inner (some sz) Ns)).length := by
    have := size_rel (c := c) (L := l) (n := .inner (some sz) Ns) (s := c.BL + c.B * l) h1
    rw [← h4] at this
    exact this
  have hpi : pushIdx c (c.BL + c.B * l) sz = some (if (els l e).length = Rrb.cap c l ∨ l = 0 then Ns.length else Ns.length - 1, (els l e).length) := by
    have hsa' : (RShp.rel (c.BL + c.B * l) sz).sizeAt (sz.length - 1) = some (els l e).length := by rw [hlen]; exact hsa
    unfold pushIdx
    rw [hsa', hlen]
    simp only [Option.map_some, Nat.one_shiftLeft, pow_shift, shiftL hB, Nat.sub_add_cancel hpos]
  refine ⟨Ns, e, rfl, rfl, h1, h2, h3, h4, hlen, he, hss, ?_⟩
  have hfin : ∀ k Y, k ≤ Ns.length → k + 1 ≤ 2 ^ c.B → pushTailFinish c (.inner (some sz) Ns) sz k ((els (l + 1) (.inner (some sz) Ns)).length + ts) Y =
      some (.inner (some (sz.take k ++ [(els (l + 1) (.inner (some sz) Ns)).length + ts])) (Ns.take k ++ [Y])) := by
    intro k Y hk hk2
    simp only [pushTailFinish, Node.inner?, Option.bind_eq_bind, Option.bind_some, slice_zero hk, slice_zero (hlen ▸ hk), mkInnerR]
    rw [if_pos (by rw [List.length_append, List.length_take, List.length_singleton]; omega)]
  simp only [pushTail, Pos.count, hlen, hsa, hss, Option.bind_eq_bind, Option.bind_some, Nat.one_shiftLeft, pow_shift, shiftL hB, Nat.sub_add_cancel hpos] at hv
  by_cases hcl : (els l e).length = Rrb.cap c l ∨ l = 0
  · left
    rw [if_pos hcl] at hpi
    refine ⟨hpi, ?_⟩
    simp only [if_pos hcl] at hv
    by_cases hr : 2 ^ c.B ≤ Ns.length
    · rw [if_pos hr] at hv
      cases hv
      exact .inl ⟨hr, rfl⟩
    · rw [if_neg hr, if_neg (by omega), hfin _ _ (Nat.le_refl _) (by omega)] at hv
      cases hv
      exact .inr ⟨by omega, rfl⟩
  · right
    rw [if_neg hcl] at hpi
    simp only [if_neg hcl] at hv
    cases l with
    | zero => exact (hcl (.inr rfl)).elim
    | succ l =>
      rw [if_neg (by omega), if_pos trivial] at hv
      have hlt : (els (l + 1) e).length < Rrb.cap c (l + 1) := by
        have := hw.len
        omega
      have hq := kidRel_kidSh hB hw (size := (els (l + 1) e).length) rfl
      simp only [Pos.lastOhCsh, Node.inner?, Option.bind_eq_bind, Option.bind_some, he, hq] at hv
      obtain ⟨r', hr', hv⟩ := Option.bind_eq_some_iff.1 hv
      refine ⟨l, r', rfl, hpi, hlt, hr', ?_⟩
      cases r' with
      | some X =>
        simp only at hv
        rw [hfin _ _ (by omega) (by omega)] at hv
        cases hv
        exact .inl ⟨X, rfl, rfl⟩
      | none =>
        right
        simp only [Nat.sub_add_cancel hpos] at hv
        by_cases hr : Ns.length < 2 ^ c.B
        · rw [if_pos hr, hfin _ _ (Nat.le_refl _) (by omega)] at hv
          cases hv
          exact .inl ⟨rfl, by omega, rfl⟩
        · rw [if_neg hr] at hv
          cases hv
          exact .inr ⟨rfl, by omega, rfl⟩

theorem pos_inj {a b : Shp} (h : a.pos N = b.pos N) : a = b := by
  cases a <;> cases b <;> simp_all [Shp.pos]

/-- regular nodes with room -/
theorem RFits.regPos {sh : Shp} (h : RFits c (l + 1) (.reg sh) N) (hlt : (els (l + 1) N).length < Rrb.cap c (l + 1)) : ∃ size, RegPos c l (sh.pos N) N size := by
  rcases PosOK.regular (show PosOK c (l + 1) (sh.pos N) (els (l + 1) N) from h) with ⟨n', size', -, hp', h1⟩ | ⟨cs', hp, h2, h3, h4⟩ | ⟨cs, hne, hl, hw, h4, hp⟩
  · have := hp'.node
    rw [pos_node] at this
    subst this
    exact ⟨_, hp'⟩
  · exfalso
    have hn : sh.pos N = .full N (c.BL + c.B * l) ∧ N = .inner none cs' := by
      cases sh <;> simp_all [Shp.pos]
    have := Full.len (L := l + 1) (n := N) (by rw [hn.2]; exact ⟨h2, h3⟩)
    omega
  · exfalso
    cases sh <;> simp_all [Shp.pos]

/-- what `push_tail_visitor` makes -/
theorem RFits.push_some (hB : 0 < c.B) {t : List T} (ht : t.length = 2 ^ c.BL) {sh : RShp} (h : RFits c (l + 1) sh N) (hlt : ∀ sh0, sh = .reg sh0 → (els (l + 1) N).length < Rrb.cap c (l + 1)) {ro : Option (Node T)}
    (hv : pushTail c (.leaf t) t.length (l + 1) (sh.pos N) = some ro) : (∀ X, ro = some X → WF c (l + 1) X ∧ els (l + 1) X = els (l + 1) N ++ t) ∧ (∀ sh0, sh = .reg sh0 → ∃ X, ro = some X) := by
  cases sh with
  | reg sh0 =>
    obtain ⟨size, hp⟩ := RFits.regPos h (hlt _ rfl)
    obtain ⟨m, h1, h2, h3⟩ := pushTail_regular hB ht t.length l h hp (hlt _ rfl)
    have h1 : pushTail c (.leaf t) t.length (l + 1) ((RShp.reg sh0).pos N) = some (some m) := h1
    rw [hv] at h1
    cases h1
    exact ⟨fun X hX => by cases hX; exact ⟨h2.wf, h3⟩, fun _ _ => ⟨m, rfl⟩⟩
  | rel i sz =>
    obtain ⟨r, h1, h2, _⟩ := pushTail_rel hB ht l (show PosOK c (l + 1) (.rel N i sz) (els (l + 1) N) from h)
    have h1 : pushTail c (.leaf t) t.length (l + 1) ((RShp.rel i sz).pos N) = some r := h1
    rw [hv] at h1
    cases h1
    exact ⟨fun X hX => ⟨(h2 X hX).1, (h2 X hX).2.1⟩, fun _ h => by cases h⟩

/-- the outcome of `push_tail_visitor`: a new tree that has taken the tail, or no room and the tail still there -/
def Pushed (c : Cfg) (E : Env Dat T) (u : Toks E.gc) (O : List Nat) (L : List (Ref (Val T))) (rt : Ref (Val T)) (m m' : Mem Dat T) : Option (Node T) → Option Nat → Prop
  | none, none => Gone c E u O (rt :: L) m m'
  | some R, some a => Inv (sys c E u) m' O (⟨a, .node R, rt.tok, false⟩ :: L) ∧ Kept (sys c E u) O (rt :: L) m m' ∧ From (sys c E u) m' a rt.ptr ∧ a ≠ rt.ptr
  | _, _ => False

/-- the copy with the new child, which is released if there is no memory -/
theorem pushFinish_out (hB : 0 < c.B) (hE : E.Fresh) {rt : Ref (Val T)} {xs : List T} {ch ts idx children ni tot : Nat} {m0 : Mem Dat T} (hu : rt.uniq = false) (hrt : rt.val = .node (.leaf xs)) (ht : E.gc = true → own.getD 0 = rt.tok)
    (h0 : Inv (sys c E u) m0 O (rt :: L)) (hk0 : Kept (sys c E u) O (rt :: L) m0 s.mem) (hf : From (sys c E u) s.mem ch rt.ptr)
    (h : Inv (sys c E u) s.mem O (⟨ch, .node X, rt.tok, false⟩ :: L)) (hX : WF c l X) (hs : (if ni = idx then children + ts else ts) = (els l X).length)
    (ha : At (sys c E u) s.mem L p (.node (.inner (some sz) Ns))) (hlen : sz.length = Ns.length) (hni : ni ≤ Ns.length) (hni2 : ni + 1 ≤ 2 ^ c.B) (htot : sz[sz.length - 1]? = some tot) :
    Out ((((pushCopy c E own p sz ts ni ch).guard (pushCatch c E rt.ptr ts l (c.BL + c.B * l) idx children ni ch)).bind fun n => M.ret (some n)) s)
      (fun s' q => Pushed c E u O L rt m0 s'.mem (some (.inner (some (sz.take ni ++ [tot + ts])) (Ns.take ni ++ [X]))) q) (fun s' => Gone c E u O (rt :: L) m0 s'.mem) := by
  have hb := Below.of h0 hk0 hf
  refine out_bind (Q := fun s' q => Inv (sys c E u) s'.mem O (⟨q, .node (.inner (some (sz.take ni ++ [tot + ts])) (Ns.take ni ++ [X])), rt.tok, false⟩ :: L) ∧
      Kept (sys c E u) O (⟨ch, .node X, rt.tok, false⟩ :: L) s.mem s'.mem ∧ From (sys c E u) s'.mem q ch ∧ s.mem q = none) (out_guard (E' := fun s' => s'.mem = s.mem) ?_ ?_) ?_
  · exact pushCopy_out hE h ha hlen hni hni2 htot ht
  · intro s' he
    rw [← he] at h hb hk0
    refine out_mono (pushCatch_out hB hu hrt h hb hX hs) ?_ (fun _ h => h)
    intro s2 _ hg
    exact Gone.trans hk0 hg
  · rintro s1 q ⟨h1, h2, h3, h4⟩
    refine ⟨h1, hk0.trans (Kept.from h2 hf), h3.trans (From.kept h2 hf), ?_⟩
    rintro rfl
    obtain ⟨ct, _, hct, _⟩ := hb.den.cell
    rw [h4] at hct
    cases hct

/-- a child -/
theorem kid_at (h : Inv (sys c E u) s.mem O (r :: L)) (ha : At (sys c E u) s.mem L p (.node (.inner rs Ns))) (hx : Ns[i]? = some X) : ∃ q, kid p i s = .ok s q ∧ At (sys c E u) s.mem L q (.node X) := by
  obtain ⟨cp, cap, tp, Lc, hc, hd, hval, _, hk, _⟩ := at_innerG h (At.mono (fun x hx => List.mem_cons_of_mem _ hx) ha)
  obtain ⟨y, hy, hyv⟩ := nth_ref hval hx
  have hya := (hk y (List.mem_of_getElem? hy)).2.1
  rw [hyv] at hya
  obtain ⟨r0, hr0, hf0⟩ := ha.reach
  refine ⟨y.ptr, kid_eq hc hd (by rw [List.getElem?_map, hy]; rfl), ⟨r0, hr0, .next hf0 hc ?_⟩, hya.den, hya.unowned⟩
  show y.ptr ∈ outsD cp.data
  rw [hd]
  exact List.mem_append_right _ (List.mem_map_of_mem (List.mem_of_getElem? hy))

/-- `push_tail_visitor` -/
theorem pushTailNewR_out (hB : 0 < c.B) (hE : E.Fresh) {rt : Ref (Val T)} {t : List T} (ht : t.length = 2 ^ c.BL) (hu : rt.uniq = false) (hrt : rt.val = .node (.leaf t)) (htk : E.gc = true → own.getD 0 = rt.tok) :
    ∀ (l : Nat) (O : List Nat) (s : St Dat T) (p : Nat) (sh : RShp) (N : Node T) (ro : Option (Node T)), RFits c (l + 1) sh N → (∀ sh0, sh = .reg sh0 → (els (l + 1) N).length < Rrb.cap c (l + 1)) →
    pushTail c (.leaf t) t.length (l + 1) (sh.pos N) = some ro → Inv (sys c E u) s.mem O (rt :: L) → At (sys c E u) s.mem L p (.node N) →
    Out (pushTailNewR c E own rt.ptr t.length (l + 1) p sh s) (fun s' q => Pushed c E u O L rt s.mem s'.mem ro q) (fun s' => Gone c E u O (rt :: L) s.mem s'.mem)
  | l, O, s, p, .reg sh, N, ro, hf, hlt, hv, h, ha => by
    obtain ⟨X, rfl⟩ := (hf.push_some hB ht hlt hv).2 _ rfl
    obtain ⟨size, hp⟩ := RFits.regPos hf (hlt _ rfl)
    unfold pushTailNewR
    refine out_bind (pushTailNew_out hB hE htk hrt l O s p sh N size X hf hp (hlt _ rfl) hv h ha) ?_
    rintro s1 n hn
    exact hn
  | l, O, s, p, .rel i sz, N, ro, hf, hlt, hv, h, ha => by
    obtain ⟨Ns, e, rfl, rfl, h1, h2, h3, h4, h5, h6, h7, hor⟩ := hf.push hB hv
    have hpos : 0 < Ns.length := List.length_pos_iff.mpr h1
    have hw := h3 e (List.mem_of_getElem? h6)
    have hmp := fun k => mkPath_reg (c := c) ht k
    unfold pushTailNewR
    rcases hor with ⟨hi, hor⟩ | ⟨l', r', rfl, hi, hlt', hv', hor⟩
    · rw [bind_ok (liftO_eq hi)]
      rcases hor with ⟨hr, rfl⟩ | ⟨hr, rfl⟩
      · simp only [if_pos hr]
        exact ⟨h, .refl⟩
      · simp only [if_neg (show ¬ 2 ^ c.B ≤ Ns.length by omega), if_neg (show ¬ sz.length - 1 = Ns.length by omega)]
        refine out_bind (Q := fun s' y => ∃ ch, y = some (Ns.length, ch) ∧ Inv (sys c E u) s'.mem O (⟨ch, .node (mkPath l (.leaf t)), rt.tok, false⟩ :: L) ∧ Kept (sys c E u) O (rt :: L) s.mem s'.mem ∧ From (sys c E u) s'.mem ch rt.ptr)
          (out_bind (makePath_out hE htk hrt l O s h) fun s1 ch hch => ⟨ch, rfl, hch⟩) ?_
        rintro s1 _ ⟨ch, rfl, hi1, hk1, hf1⟩
        exact pushFinish_out hB hE hu hrt htk h hk1 hf1 hi1 (hmp l).1.wf (by rw [(hmp l).2, if_neg (by omega)]) (ha.kept (Kept.tail hk1)) h5 (Nat.le_refl _) hr h7
    · rw [bind_ok (liftO_eq hi)]
      simp only [if_neg (show ¬ 2 ^ c.B ≤ Ns.length - 1 by omega), if_pos (show sz.length - 1 = Ns.length - 1 by omega)]
      obtain ⟨q, hq, hqa⟩ := kid_at h ha h6
      rw [← bind_assoc', bind_ok hq, ← bind_assoc', bind_ok (kidRel_den hB hqa.den hw), ← bind_assoc']
      have hfx := kidSh_fits hB hw (size := (els (l' + 1) e).length) rfl
      have hps := hfx.push_some hB ht (fun _ _ => hlt') hv'
      refine out_bind (pushTailNewR_out hB hE ht hu hrt htk l' O s q _ e r' hfx (fun _ _ => hlt') hv' h hqa) ?_
      intro s1 a hpd
      cases a with
      | some ch =>
        cases r' with
        | none => exact hpd.elim
        | some X =>
          obtain ⟨hi1, hk1, hf1, _⟩ := hpd
          rcases hor with ⟨_, h8, rfl⟩ | ⟨h8, _⟩ | ⟨h8, _⟩ <;> cases h8
          obtain ⟨hX, hXl⟩ := hps.1 X rfl
          exact pushFinish_out hB hE hu hrt htk h hk1 hf1 hi1 hX (by rw [if_pos (by omega), hXl, List.length_append]) (ha.kept (Kept.tail hk1)) h5 (Nat.sub_le _ _) (by omega) h7
      | none =>
        cases r' with
        | some X => exact hpd.elim
        | none =>
          unfold pushChild
          simp only [Nat.sub_add_cancel hpos]
          rcases hor with ⟨_, h8, _⟩ | ⟨_, h8, rfl⟩ | ⟨_, h8, rfl⟩
          · cases h8
          · rw [if_pos (show Ns.length < 2 ^ c.B by omega), ← bind_assoc']
            refine out_bind (out_mono (makePath_out hE htk hrt (l' + 1) O s1 hpd.1) (fun _ _ h => h) (fun _ hg => Gone.trans hpd.2 hg)) ?_
            rintro s2 ch ⟨hi2, hk2, hf2⟩
            have hk2 := hpd.2.trans hk2
            exact pushFinish_out hB hE hu hrt htk h hk2 hf2 hi2 (hmp (l' + 1)).1.wf (by rw [(hmp (l' + 1)).2, if_neg (by omega)]) (ha.kept (Kept.tail hk2)) h5 (Nat.le_refl _) h8 h7
          · simp only [if_neg (show ¬ Ns.length < 2 ^ c.B by omega)]
            exact hpd

end
end FlexHeap
