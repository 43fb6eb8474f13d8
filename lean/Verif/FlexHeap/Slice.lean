import Verif.FlexHeap.Persist

/-!
# Slices of flexible vectors
-/

namespace FlexHeap
open Mm Rrb VecHeap

variable {T : Type} {c : Cfg} {E : Env Dat T} {u : Toks E.gc} {O : List Nat} {L : List (Ref (Val T))}

section
variable {s : St Dat T} {m m' : Mem Dat T} {p q n i t l e : Nat} {N R X : Node T} {Ns : List (Node T)} {ks sz ss : List Nat} {cl ct : Cell Dat T} {r tr : Ref (Val T)} {own : Option Nat} {cap capT : Nat}
  {rel : Option Nat} {Lo : List (Ref (Val T))} {rs : Option (List Nat)} {idx : Nat} {mu : Bool} {Lf X' : List (Ref (Val T))}

/-- the index is in the node -/
def RIn (c : Cfg) (l : Nat) (sh : RShp) (N : Node T) (idx : Nat) : Prop :=
  match sh with
  | .reg _ => idx % Rrb.cap c l < (els l N).length
  | .rel _ _ => idx < (els l N).length

theorem RIn.of {sh : RShp} (hf : RFits c l sh N) (h : idx < (els l N).length) : RIn c l sh N idx := by
  cases sh with
  | reg sh =>
    show idx % _ < _
    exact Nat.lt_of_le_of_lt (Nat.mod_le _ _) h
  | rel i sz => exact h

/-- what is left of a relaxed node, given what is left of the child `off` -/
def sliceValR (c : Cfg) (collapse : Bool) (s : Nat) (sz : List Nat) (Ns : List (Node T)) (last off : Nat) (r : Nat × Option (Node T) × Nat × Node T) : Option (Nat × Option (Node T) × Nat × Node T) :=
  match r.2.1 with
  | some nx => some (s, some (.inner (some (sz.take off ++ [last + 1 - r.2.2.1])) (Ns.take off ++ [nx])), r.2.2)
  | none =>
    if off = 0 then some (s, none, r.2.2)
    else if collapse ∧ off = 1 ∧ c.BL < s then Ns[0]?.map fun x => (s - c.B, some x, r.2.2)
    else some (s, some (.inner (some (sz.take off)) (Ns.take off)), r.2.2)

/-- a step of `slice_right_visitor` on values -/
theorem RFits.slice (hB : 0 < c.B) {collapse : Bool} {res : Nat × Option (Node T) × Nat × Node T} (h : RFits c (l + 1) (.rel i sz) N) (hi : idx < (els (l + 1) N).length)
    (hv : Rrb.sliceRight c collapse (l + 1) (.rel N i sz) idx = some res) :
    ∃ Ns off x rv, N = .inner (some sz) Ns ∧ i = c.BL + c.B * l ∧ Ns.length ≤ 2 ^ c.B ∧ (∀ x ∈ Ns, WF c l x) ∧ sz = psums 0 (Ns.map fun x => (els l x).length) ∧ sz.length = Ns.length ∧
      (RShp.rel i sz).index c idx = some off ∧ Ns[off]? = some x ∧ before l Ns off ≤ idx ∧ idx - before l Ns off < (els l x).length ∧
      ((collapse = true ∧ off = 0) ∧ Rrb.sliceRight c collapse l ((kidSh c (c.BL + c.B * l) (els l x).length x).pos x) (idx - before l Ns off) = some res ∨
       ¬ (collapse = true ∧ off = 0) ∧ Rrb.sliceRight c false l ((kidSh c (c.BL + c.B * l) (els l x).length x).pos x) (idx - before l Ns off) = some rv ∧ sliceValR c collapse (c.BL + c.B * l) sz Ns idx off rv = some res) := by
  obtain ⟨Ns, rfl, rfl, h1, h2, h3, h4⟩ := h.rel
  have hlen : sz.length = Ns.length := by rw [h4, psums_length, List.length_map]
  obtain ⟨k, x, hx, hlo, hhi⟩ := exists_kid l Ns idx hi
  obtain ⟨hix, -⟩ := PosOK.towards hB (show PosOK c (l + 1) (.rel (.inner (some sz) Ns) (c.BL + c.B * l) sz) _ from h) rfl (IdxOK.of_eq (i := idx)) hx hlo hhi
  have hw := h3 x (List.mem_of_getElem? hx)
  have hk : k < Ns.length := (List.getElem?_eq_some_iff.1 hx).1
  simp only [Rrb.sliceRight, hix, towardsOh_eq hB hx hw h4, Option.bind_eq_bind, Option.bind_some] at hv
  have hix : (RShp.rel (c.BL + c.B * l) sz).index c idx = some k := hix
  by_cases hc : collapse = true ∧ k = 0
  · rw [if_pos hc] at hv
    exact ⟨Ns, k, x, (0, none, 0, x), rfl, rfl, h2, h3, h4, hlen, hix, hx, hlo, by omega, .inl ⟨hc, hv⟩⟩
  · rw [if_neg hc] at hv
    obtain ⟨rv, hrv, hv⟩ := Option.bind_eq_some_iff.1 hv
    refine ⟨Ns, k, x, rv, rfl, rfl, h2, h3, h4, hlen, hix, hx, hlo, by omega, .inr ⟨hc, hrv, ?_⟩⟩
    obtain ⟨sh, next, ts, tail⟩ := rv
    simp only [Pos.node, Node.inner?, Option.bind_some, slice_zero (Nat.le_of_lt hk), slice_zero (hlen ▸ Nat.le_of_lt hk), Pos.shift] at hv
    unfold sliceValR
    cases next with
    | some nx =>
      simp only [mkInnerR] at hv ⊢
      rw [if_pos (by simp; omega)] at hv
      exact hv
    | none =>
      simp only [mkInnerR] at hv ⊢
      by_cases h0 : k = 0
      · rw [if_pos h0] at hv ⊢; exact hv
      rw [if_neg h0] at hv ⊢
      by_cases hcc : collapse = true ∧ k = 1 ∧ c.BL < c.BL + c.B * l
      · rw [if_pos hcc] at hv ⊢
        rw [← hv]
        cases Ns[0]? <;> rfl
      · rw [if_neg hcc] at hv ⊢
        rw [if_pos (by simp; omega)] at hv
        exact hv

theorem RFits.sliceOk (hB : 0 < c.B) {sh : RShp} {rv : Nat × Option (Node T) × Nat × Node T} (h : RFits c l sh N) (hi : idx < (els l N).length) (hv : Rrb.sliceRight c false l (sh.pos N) idx = some rv) :
    ∃ t, rv.2.2.2 = .leaf t ∧ rv.2.2.1 = t.length ∧ ∀ n, rv.2.1 = some n → ∃ l', l = l' + 1 ∧ WF c l n ∧ (els l n).length = idx + 1 - rv.2.2.1 := by
  obtain ⟨res, h1, t, h2, h3, h4, h5, h6, h7⟩ := Rrb.sliceRight_spec hB l false h (IdxOK.of_eq (i := idx)) hi
  rw [hv] at h1
  cases h1
  refine ⟨t, h2, h3, ?_⟩
  intro n hn
  obtain ⟨L', _, h8, h9, h10, h11, _⟩ := h7 n hn
  have h8 := h8 rfl
  subst h8
  refine ⟨L', rfl, h10, ?_⟩
  have := congrArg List.length h11
  rw [List.length_append, List.length_take] at this
  omega

/-! ### Copies -/

/-- a copy of the first children and one more -/
theorem sliceCopy_out {β : Type} (hE : E.Fresh) {k ch ni tot : Nat} {Q : St Dat T → β → Prop} {Er : St Dat T → Prop} {f : Nat → HM T β} (h : Inv (sys c E u) s.mem O (⟨ch, .node X, k, false⟩ :: L))
    (ha : At (sys c E u) s.mem L p (.node (.inner (some sz) Ns))) (hlen : sz.length = Ns.length) (hni : ni ≤ Ns.length) (hni2 : ni + 1 ≤ 2 ^ c.B) (hk : E.gc = true → own.getD 0 = k)
    (hf : ∀ s1 q, Inv (sys c E u) s1.mem O (⟨q, .node (.inner (some (sz.take ni ++ [tot])) (Ns.take ni ++ [X])), k, false⟩ :: L) → Kept (sys c E u) O (⟨ch, .node X, k, false⟩ :: L) s.mem s1.mem → Out (f q s1) Q Er)
    (he : ∀ s1 : St Dat T, s1.mem = s.mem → Er s1) :
    Out (((newInnerR c E own (ni + 1)).bind fun n => (doCopyInnerR E n p ni).bind fun _ => (theTable n).bind fun t =>
          (putKid n ni ch).bind fun _ => (sizesOf t).bind fun ss => (setSizes t (ss ++ [tot])).bind fun _ => f n) s) Q Er := by
  refine out_bind (out_mono (newInnerR_out hE h) (fun _ _ h => h) he) ?_
  rintro s1 n ⟨t, cl, ct, hop, hT, htk, htk', hk1, hn⟩
  have hcap : ni + 1 ≤ capI c E own (ni + 1) := capI_le hni2
  have ha1 := (At.mono (L' := ⟨ch, .node X, k, false⟩ :: L) (fun x hx => List.mem_cons_of_mem _ hx) ha).kept hk1
  refine out_bind (out_mono (copyInnerR_out hop hT ha1 hni hlen (by omega) (by omega)) (fun _ _ h => h) (fun _ h => h.elim)) ?_
  rintro s2 _ ⟨cl2, ct2, Lc, e1, e2, hop2, hT2, hk2⟩
  have hl2 := hop2.length
  rw [List.length_take, Nat.min_eq_left hni] at hl2
  rw [bind_ok (theTable_eq hop2.cell hop2.data)]
  obtain ⟨cl3, he3, e3, hop3, hk3⟩ := hop2.push (r := ⟨ch, .node X, k, false⟩) (n := ni) (N := X) rfl (fun hg => by rw [e1, htk, tk_gc hg]; exact (hk hg).symm) (by omega) hl2.symm
  rw [bind_ok he3]
  have hT3 : Tb c E (upd s2.mem n (some cl3)) t ct2 (capI c E own (ni + 1)) (sz.take ni) := hT2.mem (upd_ne (Ne.symm hop2.ne))
  rw [bind_ok (sizesOf_eq (st := { s2 with mem := upd s2.mem n (some cl3) }) hT3.cell hT3.data)]
  have hlt : (sz.take ni ++ [tot]).length ≤ capI c E own (ni + 1) := by
    rw [List.length_append, List.length_take, List.length_singleton]
    omega
  rw [bind_ok (setSizes_eq (st := { s2 with mem := upd s2.mem n (some cl3) }) hT3.cell hT3.data hlt)]
  obtain ⟨hop4, hk4⟩ := hop3.sizes { ct2 with data := .table (capI c E own (ni + 1)) (sz.take ni ++ [tot]) }
  have hT4 := hT3.set (m' := upd s2.mem n (some cl3)) hlt
  refine hf _ n ?_ ?_
  · have := OpG.closeT hop4 hT4 (k := k) (fun _ => by show ct2.tok = _; rw [e2, htk', e3, e1, htk]) (fun hg => by rw [e3, e1, htk, tk_gc hg]; exact hk hg)
    exact VecHeap.retok this (fun _ => rfl) false (fun h => by cases h)
  · refine (hk1.trans hk2).trans ?_
    refine (Kept.open hk3).trans ?_
    have hin := Kept.upd (O := O) hop3.inv (a := t) (.inl (List.mem_cons_of_mem _ List.mem_cons_self)) (by
      have := hop3.inv.open_nodup
      simp at this
      exact this.2.1) (some { ct2 with data := .table (capI c E own (ni + 1)) (sz.take ni ++ [tot]) })
    refine hin.mono ?_ (fun _ h => h)
    intro x hx
    rcases List.mem_cons.mp hx with rfl | hx
    · simp
    · simp [hx]

/-- a copy of the first children -/
theorem cutCopy_out {β : Type} (hE : E.Fresh) {k ni : Nat} {Q : St Dat T → β → Prop} {Er : St Dat T → Prop} {f : Nat → HM T β} (h : Inv (sys c E u) s.mem O L)
    (ha : At (sys c E u) s.mem L p (.node (.inner (some sz) Ns))) (hlen : sz.length = Ns.length) (hni : ni ≤ Ns.length) (hni2 : ni ≤ 2 ^ c.B) (hk : E.gc = true → own.getD 0 = k)
    (hf : ∀ s1 q, Inv (sys c E u) s1.mem O (⟨q, .node (.inner (some (sz.take ni)) (Ns.take ni)), k, false⟩ :: L) → Kept (sys c E u) O L s.mem s1.mem → Out (f q s1) Q Er)
    (he : ∀ s1 : St Dat T, s1.mem = s.mem → Er s1) :
    Out (((newInnerR c E own ni).bind fun n => (doCopyInnerR E n p ni).bind fun _ => f n) s) Q Er := by
  refine out_bind (out_mono (newInnerR_out hE h) (fun _ _ h => h) he) ?_
  rintro s1 n ⟨t, cl, ct, hop, hT, htk, htk', hk1, hn⟩
  have hcap : ni ≤ capI c E own ni := capI_le hni2
  refine out_bind (out_mono (copyInnerR_out hop hT (ha.kept hk1) hni hlen (by omega) (by omega)) (fun _ _ h => h) (fun _ h => h.elim)) ?_
  rintro s2 _ ⟨cl2, ct2, Lc, e1, e2, hop2, hT2, hk2⟩
  refine hf _ n ?_ (hk1.trans hk2)
  have := OpG.closeT hop2 hT2 (k := k) (fun _ => by rw [e2, htk', e1, htk]) (fun hg => by rw [e1, htk, tk_gc hg]; exact hk hg)
  exact VecHeap.retok this (fun _ => rfl) false (fun h => by cases h)

/-! ### Releasing the old node -/

theorem rest_decR (hB : 0 < c.B) {sh : RShp} (hr : Rest c E u s.mem p N mu L Lf) (hf : RFits c l sh N) (h : Inv (sys c E u) s.mem O (X' ++ L)) :
    Out ((if mu then decR c E l p sh else M.ret ()) s) (fun s' _ => Gone c E u O (X' ++ Lf) s.mem s'.mem) (fun _ => False) := by
  rcases hr with ⟨rfl, rfl⟩ | ⟨rfl, r, rfl, h2, rfl, h3⟩
  · exact ⟨h, .refl⟩
  · exact decR_out hB l O (X' ++ Lf) s r sh N h2 hf (h.permL List.perm_middle)

theorem rest_decRightR {k : Nat} (hr : Rest c E u s.mem p N mu L Lf) (h : Inv (sys c E u) s.mem O (X' ++ L)) :
    Out ((if mu then decRightR c E l p i sz k else M.ret ()) s) (fun s' _ => Gone c E u O (X' ++ Lf) s.mem s'.mem) (fun _ => False) := by
  rcases hr with ⟨rfl, rfl⟩ | ⟨rfl, r, rfl, h2, rfl, h3⟩
  · exact ⟨h, .refl⟩
  · exact dec_shared (h.permL List.perm_middle) (fun hg => (h3 hg).mono fun x hx => List.mem_append_right _ hx)

/-- the handlers -/
theorem sliceCatchR_out (hB : 0 < c.B) {off : Nat} {r : Sliced} {v : Nat × Option (Node T) × Nat × Node T} {Lr : List (Ref (Val T))} {ts : List T} {b : Nat} (hc : Cut t r v Lr) (h1 : v.2.2.2 = .leaf ts) (h2 : v.2.2.1 = ts.length)
    (hb : Pos.szBefore sz off = some b) (h3 : ∀ n, v.2.1 = some n → ∃ l', l = l' + 1 ∧ WF c l n ∧ (els l n).length = idx + 1 - v.2.2.1 - b) (h : Inv (sys c E u) s.mem O (Lr ++ L)) :
    Out (sliceCatchR c E l (c.BL + c.B * l) sz idx off r s) (fun s' _ => Gone c E u O L s.mem s'.mem) (fun _ => False) := by
  obtain ⟨_, e2, hor⟩ := hc
  unfold sliceCatchR
  rcases hor with ⟨e3, e4, rfl⟩ | ⟨a, n, e3, e4, rfl⟩
  · rw [e3]
    refine out_bind (Q := fun s' _ => s' = s) rfl ?_
    rintro _ _ rfl
    exact decLeaf_out (r := ⟨r.2.2.2, .node v.2.2.2, t, false⟩) (by rw [h1]) (by rw [e2, h2]) h
  · rw [e3]
    obtain ⟨l', rfl, hw, hs⟩ := h3 n e4
    simp only
    rw [← bind_assoc', bind_ok (liftO_eq hb), shift_sub]
    refine out_bind (decInner_out (r := ⟨a, .node n, t, false⟩) hB rfl hw (by rw [e2, hs]) h) ?_
    intro s1 _ hg
    refine out_mono (decLeaf_out (r := ⟨r.2.2.2, .node v.2.2.2, t, false⟩) (by rw [h1]) (by rw [e2, h2]) hg.1) ?_ (fun _ h => h)
    intro s2 _ hg2
    exact Gone.trans (Kept.tail hg.2) hg2

/-- slices of a relaxed node that may not change -/
theorem sliceSharedR_out (hB : 0 < c.B) (hE : E.Fresh) (ht : E.gc = true → own.getD 0 = t) {collapse : Bool} {off : Nat} {res : Nat × Option (Node T) × Nat × Node T} (hf : RFits c (l + 1) (.rel i sz) N)
    (hi : idx < (els (l + 1) N).length) (hv : Rrb.sliceRight c collapse (l + 1) (.rel N i sz) idx = some res) (h : Inv (sys c E u) s.mem O L) (ha : At (sys c E u) s.mem L p (.node N))
    (hr : Rest c E u s.mem p N mu L Lf) (hoff : (RShp.rel i sz).index c idx = some off)
    (ih : ∀ (col : Bool) (x : Node T) (sh' : RShp) (q j : Nat) (v : Nat × Option (Node T) × Nat × Node T), RFits c l sh' x → j < (els l x).length → Rrb.sliceRight c col l (sh'.pos x) j = some v →
      At (sys c E u) s.mem L q (.node x) → Held (sys c E u) s.mem L q →
      Out (sliceRightR c E own false col l q sh' j s) (fun s' r => ∃ Lr, Cut t r v Lr ∧ Inv (sys c E u) s'.mem O (Lr ++ L) ∧ Kept (sys c E u) O L s.mem s'.mem) (fun s' => Gone c E u O L s.mem s'.mem)) :
    Out (((relTowards c p i sz idx off).bind fun q =>
          if collapse ∧ off = 0 then
            (sliceRightR c E own false collapse l q.1 q.2.1 q.2.2).bind fun r =>
              (if mu then decRightR c E l p i sz 1 else M.ret ()).bind fun _ => M.ret r
          else
            (sliceRightR c E own false false l q.1 q.2.1 q.2.2).bind fun r =>
              (sliceNodeR c E own mu false collapse l p i sz idx off r).guard (sliceCatchR c E l i sz idx off r)) s)
      (fun s' r => ∃ Lr, Cut t r res Lr ∧ Inv (sys c E u) s'.mem O (Lr ++ Lf) ∧ Kept (sys c E u) O Lf s.mem s'.mem) (fun s' => Gone c E u O L s.mem s'.mem) := by
  obtain ⟨Ns, off', x, rv, rfl, rfl, h1, h2, h3, h4, h5, h6, h7, hin, h8⟩ := hf.slice hB hi hv
  rw [hoff] at h5
  cases h5
  have hw := h2 x (List.mem_of_getElem? h6)
  have hlt : off < Ns.length := (List.getElem?_eq_some_iff.mp h6).1
  obtain ⟨q, hq, hqa, hqh⟩ := relTowards_at (idx := idx) hB h ha h6 hw h3
  rw [bind_ok hq]
  have hfx := kidSh_fits hB hw (size := (els l x).length) rfl
  rcases h8 with ⟨hcol, hres⟩ | ⟨hcol, hres, hval'⟩
  · rw [if_pos hcol]
    refine out_bind (ih collapse x _ q _ res hfx hin hres hqa hqh) ?_
    rintro s1 r ⟨Lr, hcut, hi1, hk1⟩
    refine out_bind (out_mono (rest_decRightR (hr.kept hk1) hi1) (fun _ _ h => h) (fun _ h => h.elim)) ?_
    intro s2 _ hg
    exact ⟨Lr, hcut, hg.1, (hk1.mono hr.sub (fun _ h => h)).trans (hg.2.mono (fun x hx => List.mem_append_right _ hx) (fun _ h => h))⟩
  · rw [if_neg hcol]
    obtain ⟨ts, t1, t2, t3⟩ := hfx.sliceOk hB hin hres
    refine out_bind (ih false x _ q _ rv hfx hin hres hqa hqh) ?_
    rintro s1 r ⟨Lr, hcut, hi1, hk1⟩
    refine out_guard (E' := fun s' => s'.mem = s1.mem) ?_ ?_
    · have ha1 := ha.kept hk1
      have hr1 := hr.kept hk1
      have fin : ∀ {s' : St Dat T} {X : List (Ref (Val T))}, Kept (sys c E u) O L s1.mem s'.mem → ∀ {m'' : Mem Dat T}, Kept (sys c E u) O (X ++ Lf) s'.mem m'' → Kept (sys c E u) O Lf s.mem m'' := by
        intro s' X hk m'' hk'
        exact ((hk1.trans hk).mono hr.sub (fun _ h => h)).trans (hk'.mono (fun x hx => List.mem_append_right _ hx) (fun _ h => h))
      obtain ⟨c1, c2, hor⟩ := hcut
      unfold sliceNodeR
      unfold sliceValR at hval'
      rcases hor with ⟨e3, e4, rfl⟩ | ⟨a, nx, e3, e4, rfl⟩
      · rw [e4] at hval'
        rw [e3]
        simp only at hval' ⊢
        by_cases h0 : off = 0
        · rw [if_pos h0] at hval' ⊢
          cases hval'
          refine out_bind (out_mono (rest_decRightR hr1 hi1) (fun _ _ h => h) (fun _ h => h.elim)) ?_
          intro s2 _ hg
          exact ⟨_, ⟨rfl, c2, .inl ⟨rfl, rfl, rfl⟩⟩, hg.1, fin (s' := s1) .refl hg.2⟩
        rw [if_neg h0] at hval' ⊢
        by_cases hcc : collapse = true ∧ off = 1 ∧ c.BL < c.BL + c.B * l
        · rw [if_pos hcc] at hval' ⊢
          obtain ⟨x0, hx0⟩ : ∃ x0, Ns[0]? = some x0 := ⟨_, List.getElem?_eq_getElem (by omega)⟩
          rw [hx0] at hval'
          cases hval'
          obtain ⟨cp', cap', t', Lc', hc', hd', hval1, _, hx', _⟩ := at_innerR hi1 (At.mono (fun x hx => List.mem_append_right _ hx) ha1)
          obtain ⟨z, hz, hzv⟩ := nth_ref hval1 hx0
          obtain ⟨hzu, hza, hzh⟩ := hx' z (List.mem_of_getElem? hz)
          rw [bind_ok (kid_eq hc' hd' (by rw [List.getElem?_map, hz]; rfl))]
          obtain ⟨cz, hcz⟩ := hi1.reach_cell hza.reach
          simp only [Bool.false_eq_true, if_false]
          rw [bind_ok (inc_eq hcz)]
          obtain ⟨hi2, hk2, _⟩ := dup_refs hi1 (Lc := [z]) (by
            intro w hw
            rw [List.mem_singleton] at hw
            subst hw
            exact ⟨hzu, hza, hzh⟩) t
          have hk2' : Kept (sys c E u) O L s1.mem (incs E.gc s1.mem [z.ptr]) := hk2.mono (fun x hx => List.mem_append_right _ hx) (fun _ h => h)
          refine out_bind (out_mono (rest_decRightR (s := { s1 with mem := incs E.gc s1.mem [z.ptr] }) (X' := [⟨z.ptr, z.val, t, z.uniq⟩, ⟨r.2.2.2, .node rv.2.2.2, t, false⟩]) (hr1.kept hk2') hi2) (fun _ _ h => h) (fun _ h => h.elim)) ?_
          intro s3 _ hg
          rw [hzv, hzu] at hg
          exact ⟨_, ⟨rfl, c2, .inr ⟨z.ptr, x0, rfl, rfl, rfl⟩⟩, hg.1, fin hk2' hg.2⟩
        · rw [if_neg hcc] at hval' ⊢
          cases hval'
          simp only [Bool.false_eq_true, if_false]
          refine cutCopy_out hE hi1 (At.mono (fun x hx => List.mem_append_right _ hx) ha1) h4 (Nat.le_of_lt hlt) (by omega) ht ?_ (fun _ h => h)
          intro s3 n hcl hk3
          have hk3' : Kept (sys c E u) O L s1.mem s3.mem := hk3.mono (fun x hx => List.mem_append_right _ hx) (fun _ h => h)
          refine out_bind (out_mono (rest_decR (X' := [⟨n, _, t, false⟩, ⟨r.2.2.2, .node rv.2.2.2, t, false⟩]) hB (hr1.kept hk3') hf hcl) (fun _ _ h => h) (fun _ h => h.elim)) ?_
          intro s4 _ hg
          exact ⟨_, ⟨rfl, c2, .inr ⟨n, _, rfl, rfl, rfl⟩⟩, hg.1, fin hk3' hg.2⟩
      · rw [e4] at hval'
        rw [e3]
        simp only [Bool.false_eq_true, if_false] at hval' ⊢
        cases hval'
        refine sliceCopy_out (k := t) (L := ⟨r.2.2.2, .node rv.2.2.2, t, false⟩ :: L) hE hi1 (At.mono (fun x hx => List.mem_cons_of_mem _ hx) ha1) h4 (Nat.le_of_lt hlt) (by omega) ht ?_ (fun _ h => h)
        intro s3 n hcl hk3
        have hk3' : Kept (sys c E u) O L s1.mem s3.mem := hk3.mono (fun x hx => List.mem_cons_of_mem _ (List.mem_cons_of_mem _ hx)) (fun _ h => h)
        refine out_bind (out_mono (rest_decR (X' := [⟨n, _, t, false⟩, ⟨r.2.2.2, .node rv.2.2.2, t, false⟩]) hB (hr1.kept hk3') hf hcl) (fun _ _ h => h) (fun _ h => h.elim)) ?_
        intro s4 _ hg
        rw [c2] at hg
        exact ⟨_, ⟨rfl, c2, .inr ⟨n, _, rfl, rfl, rfl⟩⟩, hg.1, fin hk3' hg.2⟩
    · intro s2 hs2
      have hb : Pos.szBefore sz off = some (before l Ns off) := by
        rw [h3, szBefore_psums _ _ (by simp; omega), before_eq_sum]
      refine out_mono (sliceCatchR_out (t := t) hB hcut t1 t2 hb (fun n hn => by
        obtain ⟨l', e1, e2, e3⟩ := t3 n hn
        exact ⟨l', e1, e2, by omega⟩) (by rw [hs2]; exact hi1)) ?_ (fun _ h => h)
      intro s3 _ hg
      exact Gone.trans hk1 (by rw [← hs2]; exact hg)

theorem mayMutate_false : mayMutate E own false p s = .ok s false := by
  unfold mayMutate
  cases own <;> rfl

/-- `slice_right_visitor`, also of the visitor that mutates for nodes of others -/
theorem sliceNewR_out (hB : 0 < c.B) (hE : E.Fresh) (ht : E.gc = true → own.getD 0 = t) : ∀ (l : Nat) (collapse : Bool) (s : St Dat T) (p : Nat) (sh : RShp) (N : Node T) (idx : Nat)
    (res : Nat × Option (Node T) × Nat × Node T), RFits c l sh N → idx < (els l N).length → Rrb.sliceRight c collapse l (sh.pos N) idx = some res → Inv (sys c E u) s.mem O L →
    At (sys c E u) s.mem L p (.node N) → (l = 0 → Held (sys c E u) s.mem L p) →
    Out (sliceRightR c E own false collapse l p sh idx s) (fun s' r => ∃ Lr, Cut t r res Lr ∧ Inv (sys c E u) s'.mem O (Lr ++ L) ∧ Kept (sys c E u) O L s.mem s'.mem) (fun s' => Gone c E u O L s.mem s'.mem)
  | l, collapse, s, p, .reg sh, N, idx, res, hf, hi, hv, h, ha, hh => by
    have := sliceNew_out hB hE ht l collapse s p sh N idx res hf (RIn.of hf hi) hv h ha hh
    cases l <;> exact this
  | 0, collapse, s, p, .rel i sz, N, idx, res, hf, hi, hv, h, ha, hh => hf.rel0.elim
  | l + 1, collapse, s, p, .rel i sz, N, idx, res, hf, hi, hv, h, ha, hh => by
    obtain ⟨_, off, _, _, _, _, _, _, _, _, h4, _⟩ := hf.slice hB hi hv
    unfold sliceRightR
    rw [bind_ok (liftO_eq h4), bind_ok mayMutate_false]
    refine sliceSharedR_out hB hE ht hf hi hv h ha (.inl ⟨rfl, rfl⟩) h4 ?_
    intro col x sh' q j v a1 a2 a3 a4 a5
    exact sliceNewR_out hB hE ht l col s q sh' x j v a1 a2 a3 h a4 (fun _ => a5)

end
end FlexHeap
