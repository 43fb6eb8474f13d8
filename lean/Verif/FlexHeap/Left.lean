import Verif.FlexHeap.Slice

/-!
# Slices of flexible vectors on the left
-/

namespace FlexHeap
open Mm Rrb VecHeap

variable {T : Type} {c : Cfg} {E : Env Dat T} {u : Toks E.gc} {O : List Nat} {L : List (Ref (Val T))}

section
variable {s : St Dat T} {m m' : Mem Dat T} {p q n i j t l e k : Nat} {N R X x : Node T} {Ns : List (Node T)} {ks sz ss : List Nat} {cl ct : Cell Dat T} {r tr : Ref (Val T)} {own : Option Nat} {cap capT : Nat}
  {rel : Option Nat} {Lo : List (Ref (Val T))} {rs : Option (List Nat)} {idx : Nat} {mu : Bool} {Lf X' : List (Ref (Val T))} {xs : List T}

/-! ### Positions of children -/

/-- the child `k` has the position `sh'` and the index `j` -/
def SubTo (c : Cfg) (l : Nat) (sh : RShp) (Ns : List (Node T)) (idx k : Nat) (x : Node T) (sh' : RShp) (j : Nat) : Prop :=
  match sh with
  | .reg sh0 => ∃ sh0', towardsSub c idx k sh0 = some (sh0', j) ∧ sh' = .reg sh0'
  | .rel i sz => i = c.BL + c.B * l ∧ sz = psums 0 (Ns.map fun x => (els l x).length) ∧ sh' = kidSh c (c.BL + c.B * l) (els l x).length x ∧ j = idx - before l Ns k

theorem pos_kidRegSub (s size : Nat) (x : Node T) : Pos.kidRegSub c s size x = (if s = c.BL then Shp.leafSub size else .regSub (s - c.B) size).pos x := by
  unfold Pos.kidRegSub
  split <;> rfl

theorem pos_towardsSub {sh : Shp} {q : Pos T} (h : (sh.pos N).towardsSubOh c idx k = some (q, i)) (hs : SubPos (sh.pos N)) :
    ∃ r cs x sh', N = .inner r cs ∧ cs[k]? = some x ∧ towardsSub c idx k sh = some (sh', i) ∧ q = sh'.pos x := by
  cases sh with
  | leaf => cases h
  | leafSub => cases h
  | fullLeaf => cases h
  | reg s size => exact hs.elim
  | regSub s size =>
    simp only [Shp.pos, Pos.towardsSubOh, Pos.towardsSubRegular, Option.bind_eq_bind, Option.bind_eq_some_iff, Option.some.injEq, Prod.mk.injEq] at h
    obtain ⟨cs, h1, x, h2, ls, h3, rfl, rfl⟩ := h
    cases N with
    | leaf => cases h1
    | inner r cs' =>
      cases h1
      refine ⟨r, cs, x, _, rfl, h2, by simp only [towardsSub, subRegular, h3, Option.map_some]; rfl, ?_⟩
      split
      · exact (pos_kidFull s x).symm
      · exact pos_kidRegSub _ _ _
  | full s =>
    simp only [Shp.pos, Pos.towardsSubOh, Option.bind_eq_bind, Option.bind_eq_some_iff, Option.some.injEq, Prod.mk.injEq] at h
    obtain ⟨cs, h1, x, h2, rfl, rfl⟩ := h
    cases N with
    | leaf => cases h1
    | inner r cs' =>
      cases h1
      exact ⟨r, cs, x, _, rfl, h2, rfl, (pos_kidFull s x).symm⟩

/-- where `slice_left_visitor` goes -/
theorem RFits.left (hB : 0 < c.B) {sh : RShp} (h : RFits c (l + 1) sh N) (hsub : SubPos (sh.pos N)) (h32 : (els (l + 1) N).length ≤ 2 ^ 32) (hs32 : c.BL + c.B * l < 32) (hi : idx < (els (l + 1) N).length)
    {collapse : Bool} {res : Nat × Node T} (hv : Rrb.sliceLeft c collapse (l + 1) (sh.pos N) idx = some res) :
    ∃ rs Ns k x sh', N = .inner rs Ns ∧ Ns.length ≤ 2 ^ c.B ∧ (∀ x ∈ Ns, WF c l x) ∧ sh.count c = Ns.length ∧ sh.shift = c.BL + c.B * l ∧ Ns[k]? = some x ∧ before l Ns k ≤ idx ∧
      idx - before l Ns k < (els l x).length ∧ sh.subindex idx = some k ∧ sh.sizeBefore k = some (before l Ns k) ∧ sh.sizeAt k = some (els l x).length ∧ SubTo c l sh Ns idx k x sh' (idx - before l Ns k) ∧
      RFits c l sh' x ∧ SubPos (sh'.pos x) ∧
      ((collapse = true ∧ c.BL < c.BL + c.B * l ∧ k = Ns.length - 1) ∧ Rrb.sliceLeft c collapse l (sh'.pos x) (idx - before l Ns k) = some res ∨
       ¬ (collapse = true ∧ c.BL < c.BL + c.B * l ∧ k = Ns.length - 1) ∧ ∃ s1 n0 ss, Rrb.sliceLeft c false l (sh'.pos x) (idx - before l Ns k) = some (s1, n0) ∧
         sh.copySizes (k + 1) (Ns.length - k - 1) ((els l x).length - (idx - before l Ns k)) = some ss ∧ ss.length = Ns.length - (k + 1) ∧
         res = (c.BL + c.B * l, .inner (some (((els l x).length - (idx - before l Ns k)) :: ss)) (n0 :: Ns.drop (k + 1)))) := by
  obtain ⟨rs, Ns, hn, hne, hl, hw, hels, hcnt, hsh⟩ := PosOK.inner h
  obtain ⟨k, x, hx, hlo, hhi⟩ := exists_kid l Ns idx (by rw [← hels]; exact hi)
  obtain ⟨hix, q, hto, hqok, hqn, hqs⟩ := PosOK.towardsSub hB h hsub hn h32 hs32 hx hlo hhi
  obtain ⟨hb, ha⟩ := PosOK.sub_sizes h hsub hn hx
  have hk : k < Ns.length := (List.getElem?_eq_some_iff.1 hx).1
  have hwx := hw x (List.mem_of_getElem? hx)
  have hN := hn
  rw [rpos_node] at hN
  obtain ⟨sh', hst, rfl⟩ : ∃ sh', SubTo c l sh Ns idx k x sh' (idx - before l Ns k) ∧ q = sh'.pos x := by
    cases sh with
    | reg sh0 =>
      obtain ⟨r', cs', x', sh', e1, e2, e3, e4⟩ := pos_towardsSub hto hsub
      rw [hN] at e1
      cases e1
      rw [hx] at e2
      cases e2
      exact ⟨.reg sh', ⟨sh', e3, rfl⟩, e4⟩
    | rel i sz =>
      obtain ⟨Ns', e1, rfl, _, _, _, e2⟩ := RFits.rel h
      rw [hN] at e1
      cases e1
      refine ⟨_, ⟨rfl, e2, rfl, rfl⟩, ?_⟩
      have := towardsOh_eq (idx := idx) hB hx hwx e2
      rw [hN] at hto
      have hto : Pos.towardsOh c (.rel (.inner (some sz) Ns) (c.BL + c.B * l) sz) idx k = some (q, _) := hto
      rw [this] at hto
      cases hto
      rfl
  simp only [Rrb.sliceLeft, hix, hb, ha, hto, hcnt, hsh, hn, Node.inner?, Option.bind_eq_bind, Option.bind_some] at hv
  rw [rpos_subindex] at hix
  rw [rpos_sizeBefore] at hb
  rw [rpos_sizeAt] at ha
  rw [rpos_count] at hcnt
  rw [rpos_shift] at hsh
  have hqok : RFits c l sh' x := hqok
  refine ⟨rs, Ns, k, x, sh', hN, hl, hw, hcnt, hsh, hx, hlo, by omega, hix, hb, ha, hst, hqok, hqs, ?_⟩
  by_cases hcol : collapse = true ∧ c.BL < c.BL + c.B * l ∧ k = Ns.length - 1
  · rw [if_pos hcol] at hv
    exact .inl ⟨hcol, hv⟩
  · rw [if_neg hcol] at hv
    obtain ⟨⟨s1, n0⟩, h1, hv⟩ := Option.bind_eq_some_iff.1 hv
    obtain ⟨ss, h2, hv⟩ := Option.bind_eq_some_iff.1 hv
    obtain ⟨cs, h3, hv⟩ := Option.bind_eq_some_iff.1 hv
    rw [slice_ok (by omega) (Nat.le_refl _)] at h3
    cases h3
    obtain ⟨n, h4, hv⟩ := Option.bind_eq_some_iff.1 hv
    cases hv
    have hss : ss.length = Ns.length - (k + 1) := by
      have := PosOK.copySizes h hsub hn (k := k + 1) (by omega) ((els l x).length - (idx - before l Ns k))
      rw [show Ns.length - (k + 1) = Ns.length - k - 1 by omega, h2] at this
      cases this
      rw [psums_length, List.length_map, List.length_drop]
    rw [rpos_copySizes] at h2
    refine .inr ⟨hcol, s1, n0, ss, h1, h2, hss, ?_⟩
    unfold mkInnerR at h4
    split at h4
    · cases h4
      rw [List.take_of_length_le (by simp)]
    · cases h4

/-- `towards_sub_oh` -/
theorem subTowards_eq (hB : 0 < c.B) {sh sh' : RShp} (hst : SubTo c l sh Ns idx k x sh' j) (hc : s.mem p = some cl) (hd : cl.data = .inner cap rel ks) (hq : ks[k]? = some q) (hx : Ns[k]? = some x) (hw : WF c l x)
    (hden : Den (sys c E u) s.mem q (.node x)) : subTowards c p sh idx k s = .ok s (q, sh', j) := by
  cases sh with
  | reg sh0 =>
    obtain ⟨sh0', h1, rfl⟩ := hst
    unfold subTowards
    simp only
    rw [bind_ok (liftO_eq h1), bind_ok (kid_eq hc hd hq)]
    rfl
  | rel i sz =>
    obtain ⟨rfl, h1, rfl, rfl⟩ := hst
    exact relTowards_eq hB hc hd hq hx hw hden h1

theorem subTowards_at (hB : 0 < c.B) {sh sh' : RShp} (hst : SubTo c l sh Ns idx k x sh' j) (h : Inv (sys c E u) s.mem O L) (ha : At (sys c E u) s.mem L p (.node (.inner rs Ns))) (hx : Ns[k]? = some x) (hw : WF c l x) :
    ∃ q, subTowards c p sh idx k s = .ok s (q, sh', j) ∧ At (sys c E u) s.mem L q (.node x) ∧ Held (sys c E u) s.mem L q := by
  obtain ⟨cl, cap, rel, Lc, hc, hd, hval, _, hx', _⟩ := at_innerG h ha
  obtain ⟨z, hz, hzv⟩ := nth_ref hval hx
  obtain ⟨_, hza, hzh⟩ := hx' z (List.mem_of_getElem? hz)
  rw [hzv] at hza
  exact ⟨z.ptr, subTowards_eq hB hst hc hd (by rw [List.getElem?_map, hz]; rfl) hx hw hza.den, hza, hzh⟩

/-! ### Leaves -/

/-- `copy_leaf(src, idx, last)` -/
theorem copyLeafI_raw (hE : E.Fresh) {src : Nat} (h : Inv (sys c E u) s.mem O L) (hc : s.mem src = some cl) (hx : Elems cl.els xs) (hn : n = xs.length) (hb : n ≤ 2 ^ c.BL) (ht : E.gc = true → own.getD 0 = t) :
    Out (copyLeafI c E own src i n s) (fun s' q => Inv (sys c E u) s'.mem O (⟨q, .node (.leaf (xs.drop i)), t, true⟩ :: L) ∧ Kept (sys c E u) O L s.mem s'.mem)
      (fun s' => Gone c E u O L s.mem s'.mem) := by
  have hdl : (xs.drop i).length = n - i := by rw [List.length_drop, hn]
  unfold copyLeafI
  refine out_bind (out_mono (newLeaf_out hE h) (fun _ _ h => h) (fun s' he => gone_of_eq h he)) ?_
  rintro s1 q ⟨hq, hs1⟩
  have hne : src ≠ q := by rintro rfl; rw [hc] at hq; cases hq
  have hcap := capL_le (E := E) (own := own) (show n - i ≤ 2 ^ c.BL by omega)
  refine out_bind (out_guard (E' := fun s' => s'.mem = s1.mem) (E := fun s' => Gone c E u O L s.mem s'.mem) (Q := fun s' _ => s'.mem = upd s.mem q (some (leafCell c E own (n - i) (xs.drop i)))) ?_ ?_) ?_
  · refine out_mono (uninitCopy_out (pre := []) (post := List.replicate (capL c E own (n - i) - (n - i)) .raw) (ys := xs.drop i) hne (by rw [hs1]; exact upd_self) rfl (by rw [hs1, upd_ne hne]; exact hc)
      hdl.symm ?_ ?_) ?_ (fun _ h => h.1)
    · intro j hj
      rw [hx.get (by omega), List.getElem?_drop]
    · show List.replicate _ _ = _
      rw [List.nil_append, List.replicate_append_replicate]
      congr 1
      omega
    · rintro s' _ ⟨h1, _⟩
      rw [h1, hs1, upd_upd]
      unfold leafCell
      rw [hdl]
      rfl
  · intro s' hs'
    have hq' : s'.mem q = some ⟨1, VecHeap.tk E own, List.replicate (capL c E own (n - i)) .raw, .leaf⟩ := by rw [hs', hs1]; exact upd_self
    have : freeLeaf c E own q (n - i) s' = .ok { s' with mem := upd s'.mem q none } () := by
      unfold freeLeaf
      refine dealloc_eq hq' ?_ rfl
      cases own <;> rfl
    rw [this]
    refine gone_of_eq h ?_
    show upd s'.mem q none = s.mem
    rw [hs', hs1, upd_upd, upd_same hq]
  · intro s' _ hs'
    show Inv (sys c E u) s'.mem O _ ∧ Kept (sys c E u) O L s.mem s'.mem
    rw [hs']
    exact ⟨close_new h hq (by omega) (by omega) ht, Kept.new h hq _⟩

theorem copyLeafI_out (hE : E.Fresh) {src : Nat} (h : Inv (sys c E u) s.mem O L) (ha : At (sys c E u) s.mem L src (.node (.leaf xs))) (hn : n = xs.length) (hb : n ≤ 2 ^ c.BL) (ht : E.gc = true → own.getD 0 = t) :
    Out (copyLeafI c E own src i n s) (fun s' q => Inv (sys c E u) s'.mem O (⟨q, .node (.leaf (xs.drop i)), t, true⟩ :: L) ∧ Kept (sys c E u) O L s.mem s'.mem)
      (fun s' => Gone c E u O L s.mem s'.mem) := by
  obtain ⟨cl, hc, _, hx, _⟩ := at_leaf h ha
  exact copyLeafI_raw hE h hc hx hn hb ht

/-! ### Filling the new node -/

/-- the rest of the new node, once there is a first child -/
theorem sliceFill_out (hB : 0 < c.B) {sh : RShp} {s0 : Nat} (hf : RFits c (l + 1) sh (.inner rs Ns)) (hcnt : sh.count c = Ns.length) (hk : k < Ns.length) (hss : sh.copySizes (k + 1) (Ns.length - k - 1) s0 = some ss)
    (hsl : ss.length = Ns.length - (k + 1)) (h : OpG c E u s.mem (t :: O) (⟨q, .node X, e, false⟩ :: L) n cl cap (some t) [] []) (hT : Tb c E s.mem t ct cap []) (htt : ct.tok = cl.tok) (hcap : Ns.length - k ≤ cap)
    (hte : E.gc = true → cl.tok = e) (ha : At (sys c E u) s.mem L p (.node (.inner rs Ns))) (hr : Rest c E u s.mem p (.inner rs Ns) mu L Lf) :
    Out (sliceFill c E mu false l p n sh k s0 q s) (fun s' r => r = (sh.shift, n) ∧ Inv (sys c E u) s'.mem O (⟨n, .node (.inner (some (s0 :: ss)) (X :: Ns.drop (k + 1))), e, false⟩ :: Lf) ∧
      Kept (sys c E u) O Lf s.mem s'.mem) (fun _ => False) := by
  unfold sliceFill
  rw [if_neg (by simp), bind_ok (show (M.ret () : HM T Unit) s = .ok s () from rfl), bind_ok (theTable_eq h.cell h.data), hcnt, bind_ok (liftO_eq hss)]
  have hlt : (s0 :: ss).length ≤ cap := by rw [List.length_cons]; omega
  rw [bind_ok (setSizes_eq hT.cell hT.data hlt)]
  obtain ⟨hop1, hk1⟩ := h.sizes { ct with data := .table cap (s0 :: ss) }
  have hT1 := hT.set (m' := s.mem) hlt
  generalize hm1 : upd s.mem t (some { ct with data := .table cap (s0 :: ss) }) = m1 at hop1 hk1 hT1 ⊢
  have hL : ∀ x ∈ L, x ∈ (⟨q, .node X, e, false⟩ :: L : List (Ref (Val T))) := fun x hx => List.mem_cons_of_mem _ hx
  have ha1 := (At.mono hL ha).kept hk1
  obtain ⟨cp, capP, relP, Lc, hcp, hdp, hval, hpO, hx', _⟩ := at_innerG hop1.inv ha1
  have hlen : Lc.length = Ns.length := by
    have := congrArg List.length hval
    simpa using this
  rw [bind_ok (kids_eq (s := { s with mem := m1 }) hcp hdp), bind_ok (liftO_eq (b := (Lc.drop (k + 1)).map Ref.ptr) (by
    rw [slice_ok (by omega) (by rw [List.length_map]; omega), List.map_drop, List.take_of_length_le (by simp; omega)]))]
  have hql : (q :: (Lc.drop (k + 1)).map Ref.ptr).length ≤ cap := by simp; omega
  rw [bind_ok (setKids_eq (s := { s with mem := m1 }) hop1.cell hop1.data hql)]
  simp only [Bool.false_eq_true, if_false]
  have hi2 := hop1.inv.write (a := n) List.mem_cons_self { cl with data := .inner cap (some t) (q :: (Lc.drop (k + 1)).map Ref.ptr) }
  have hk2 := Kept.write hop1.inv (some { cl with data := .inner cap (some t) (q :: (Lc.drop (k + 1)).map Ref.ptr) })
  generalize hm2 : upd m1 n (some { cl with data := .inner cap (some t) (q :: (Lc.drop (k + 1)).map Ref.ptr) }) = m2 at hi2 hk2 ⊢
  have hk2' : Kept (sys c E u) O (⟨q, .node X, e, false⟩ :: L) m1 m2 := Kept.open hk2
  have hc2 : m2 n = some { cl with data := .inner cap (some t) (q :: (Lc.drop (k + 1)).map Ref.ptr) } := by rw [← hm2]; exact upd_self
  have hT2 : Tb c E m2 t _ cap (s0 :: ss) := hT1.mem (by rw [← hm2]; exact upd_ne (Ne.symm hop1.ne))
  have hx2 : ∀ x ∈ Lc.drop (k + 1), x.uniq = false ∧ At (sys c E u) m2 (⟨q, .node X, e, false⟩ :: L) x.ptr x.val ∧ Held (sys c E u) m2 (⟨q, .node X, e, false⟩ :: L) x.ptr := by
    intro x hx
    obtain ⟨a1, a2, a3⟩ := hx' x (List.mem_of_mem_drop hx)
    exact ⟨a1, a2.kept hk2', a3.kept hk2'⟩
  obtain ⟨hi3, hk3, hall⟩ := dup_refs hi2 hx2 cl.tok
  have hnot : ∀ a, a ∈ n :: t :: O → a ∉ (Lc.drop (k + 1)).map Ref.ptr := by
    intro a haO hm
    obtain ⟨x, hxm, he⟩ := List.mem_map.mp hm
    exact hi2.reach_notin (hx2 x hxm).2.1.reach (by rw [he]; exact haO)
  have hc3 : incs E.gc m2 ((Lc.drop (k + 1)).map Ref.ptr) n = m2 n := incs_open hi2 (hnot n List.mem_cons_self)
  have hc3t : incs E.gc m2 ((Lc.drop (k + 1)).map Ref.ptr) t = m2 t := incs_open (hi2.perm (List.Perm.swap _ _ _) (List.Perm.refl _)) (hnot t (List.mem_cons_of_mem _ List.mem_cons_self))
  rw [← bind_assoc', bind_ok (incAll_eq _ { s with mem := m2 } (by
    intro a hm
    obtain ⟨x, hxm, rfl⟩ := List.mem_map.mp hm
    exact hall x hxm))]
  have hop3 : OpG c E u (incs E.gc m2 ((Lc.drop (k + 1)).map Ref.ptr)) (t :: O) L n { cl with data := .inner cap (some t) (q :: (Lc.drop (k + 1)).map Ref.ptr) } cap (some t)
      (⟨q, .node X, e, false⟩ :: (Lc.drop (k + 1)).map (fun x => { x with tok := cl.tok })) (X :: Ns.drop (k + 1)) := by
    refine ⟨hc3.trans hc2, ?_, h.els, h.rc, h.capRc, h.tk, ?_, ?_, ?_, ?_⟩
    · simp [Function.comp_def]
    · simpa using hql
    · simp [Function.comp_def, List.map_drop, ← hval]
    · intro hg x hx
      rcases List.mem_cons.mp hx with rfl | hx
      · exact (hte hg).symm
      · obtain ⟨y, _, rfl⟩ := List.mem_map.mp hx
        rfl
    · exact hi3.permL List.perm_middle
  have hcl := OpG.closeT hop3 (hT2.mem hc3t) (k := e) (fun _ => htt) hte
  have hcl := VecHeap.retok hcl (fun _ => rfl) false (fun h => by cases h)
  have hkk : Kept (sys c E u) O L s.mem (incs E.gc m2 ((Lc.drop (k + 1)).map Ref.ptr)) :=
    ((hk1.trans hk2').trans (Kept.open (Kept.open hk3))).mono hL (fun _ h => h)
  refine out_bind (rest_decR (s := { s with mem := incs E.gc m2 ((Lc.drop (k + 1)).map Ref.ptr) }) (X' := [⟨n, _, e, false⟩]) hB (hr.kept hkk) hf hcl) ?_
  intro s4 _ hg
  exact ⟨rfl, hg.1, (hkk.mono hr.sub (fun _ h => h)).trans (hg.2.mono (fun x hx => List.mem_append_right _ hx) (fun _ h => h))⟩

/-! ### The visitor -/

/-- slices of an inner node that may not change -/
theorem sliceLeftShared_out (hB : 0 < c.B) (hE : E.Fresh) {X : Elem T} (ht : E.gc = true → own.getD 0 = t) {collapse : Bool} {sh : RShp} {res : Nat × Node T} (hf : RFits c (l + 1) sh N) (hsub : SubPos (sh.pos N))
    (h32 : (els (l + 1) N).length ≤ 2 ^ 32) (hs32 : c.BL + c.B * l < 32) (hi : idx < (els (l + 1) N).length) (hv : Rrb.sliceLeft c collapse (l + 1) (sh.pos N) idx = some res)
    (h : Inv (sys c E u) s.mem O L) (ha : At (sys c E u) s.mem L p (.node N)) (hr : Rest c E u s.mem p N mu L Lf) (hb : mayMutate E own mu p s = .ok s false)
    (ih : ∀ (O' : List Nat) (s' : St Dat T) (col : Bool) (x : Node T) (sh' : RShp) (q j : Nat) (v : Nat × Node T), RFits c l sh' x → SubPos (sh'.pos x) → (els l x).length ≤ 2 ^ 32 → j < (els l x).length →
      Rrb.sliceLeft c col l (sh'.pos x) j = some v → Inv (sys c E u) s'.mem O' L → At (sys c E u) s'.mem L q (.node x) → Held (sys c E u) s'.mem L q →
      Out (sliceLeftR c E X own false col l q sh' j s') (fun s'' r => r.1 = v.1 ∧ Inv (sys c E u) s''.mem O' (⟨r.2, .node v.2, t, false⟩ :: L) ∧ Kept (sys c E u) O' L s'.mem s''.mem)
        (fun s'' => Gone c E u O' L s'.mem s''.mem)) :
    Out (sliceLeftR c E X own mu collapse (l + 1) p sh idx s) (fun s' r => r.1 = res.1 ∧ Inv (sys c E u) s'.mem O (⟨r.2, .node res.2, t, false⟩ :: Lf) ∧ Kept (sys c E u) O Lf s.mem s'.mem)
      (fun s' => Gone c E u O L s.mem s'.mem) := by
  obtain ⟨rs, Ns, k, x, sh', rfl, h1, h2, h3, h4, h5, h6, h7, h8, h9, h10, h11, h12, h13, h14⟩ := hf.left hB hsub h32 hs32 hi hv
  have hw := h2 x (List.mem_of_getElem? h5)
  have hlt : k < Ns.length := (List.getElem?_eq_some_iff.mp h5).1
  have hx32 : (els l x).length ≤ 2 ^ 32 := by
    refine Nat.le_trans ?_ h32
    have := before_succ l Ns k x h5
    have := before_mono l Ns (show k + 1 ≤ Ns.length by omega)
    rw [before_all l Ns Ns.length (Nat.le_refl _)] at this
    show _ ≤ (Ns.flatMap (els l)).length
    omega
  unfold sliceLeftR
  rw [bind_ok (liftO_eq h8), bind_ok hb, bind_ok (liftO_eq h9), bind_ok (liftO_eq h10), h3, h4]
  rcases h14 with ⟨hcol, hres⟩ | ⟨hcol, s1, n0, ss, hres, hss, hsl, rfl⟩
  · rw [if_pos hcol]
    obtain ⟨q, hq, hqa, hqh⟩ := subTowards_at hB h11 h ha h5 hw
    rw [bind_ok hq]
    refine out_bind (ih O s collapse x sh' q _ res h12 h13 hx32 h7 hres h hqa hqh) ?_
    rintro s1 r ⟨e1, hi1, hk1⟩
    simp only [Bool.false_eq_true, if_false]
    refine out_bind (out_mono (rest_decR (X' := [_]) hB (hr.kept hk1) hf hi1) (fun _ _ h => h) (fun _ h => h.elim)) ?_
    intro s2 _ hg
    exact ⟨e1, hg.1, (hk1.mono hr.sub (fun _ h => h)).trans (hg.2.mono (fun x hx => List.mem_append_right _ hx) (fun _ h => h))⟩
  · rw [if_neg hcol]
    have hd : sliceTarget c E own false p sh (Ns.length - k) = newInnerR c E own (Ns.length - k) := by
      unfold sliceTarget
      rw [if_neg (by simp)]
    rw [hd]
    refine out_bind (out_mono (newInnerR_out hE h) (fun _ _ h => h) (fun s' he => gone_of_eq h he)) ?_
    rintro s2 n ⟨t', cl, ct, hop, hT, htk, htk', hk2, hn⟩
    have hcap : Ns.length - k ≤ capI c E own (Ns.length - k) := capI_le (by omega)
    refine out_guard (E' := fun s' => Gone c E u (n :: t' :: O) L s2.mem s'.mem) ?_ ?_
    · obtain ⟨q, hq, hqa, hqh⟩ := subTowards_at hB h11 hop.inv (ha.kept hk2) h5 hw
      rw [bind_ok hq]
      refine out_bind (ih _ s2 false x sh' q _ (s1, n0) h12 h13 hx32 h7 hres hop.inv hqa hqh) ?_
      rintro s3 r ⟨_, hi3, hk3⟩
      have hop3 : OpG c E u s3.mem (t' :: O) (⟨r.2, .node n0, t, false⟩ :: L) n cl _ (some t') [] [] :=
        hop.mem hi3 (hk3.2 n List.mem_cons_self)
      have hT3 := hT.mem (m' := s3.mem) (hk3.2 t' (List.mem_cons_of_mem _ List.mem_cons_self))
      have hk3' : Kept (sys c E u) O L s2.mem s3.mem := Kept.open (Kept.open hk3)
      have hk := hk2.trans hk3'
      refine out_mono (sliceFill_out (s := s3) (e := t) hB hf h3 hlt hss hsl hop3 hT3 (htk'.trans htk.symm) hcap (fun hg => by rw [htk, tk_gc hg]; exact ht hg) (ha.kept hk) (hr.kept hk)) ?_ (fun _ h => h.elim)
      rintro s4 r' ⟨rfl, hi4, hk4⟩
      exact ⟨h4, hi4, (hk.mono hr.sub (fun _ h => h)).trans hk4⟩
    · intro s3 hg
      have hop3 : OpG c E u s3.mem (t' :: O) L n cl _ (some t') [] [] := hop.mem hg.1 (hg.2.2 n List.mem_cons_self)
      have hT3 := hT.mem (m' := s3.mem) (hg.2.2 t' (List.mem_cons_of_mem _ List.mem_cons_self))
      have hk := hk2.trans (Kept.open (Kept.open hg.2))
      unfold sliceLeftCatch
      rw [if_neg (by simp)]
      refine out_mono (hop3.free (own := own) hT3 (htk'.trans htk.symm) htk rfl) ?_ (fun _ h => h)
      intro s4 _ hg4
      exact Gone.trans hk hg4

/-- leaves that may not change -/
theorem sliceLeafLeft_out (hE : E.Fresh) {X : Elem T} (ht : E.gc = true → own.getD 0 = t) {sh : Shp} {res : Nat × Node T} (hf : Fits c 0 sh N) (hi : idx < (els 0 N).length)
    (hv : Rrb.sliceLeft c false 0 (sh.pos N) idx = some res) (h : Inv (sys c E u) s.mem O L) (ha : At (sys c E u) s.mem L p (.node N)) (hr : Rest c E u s.mem p N mu L Lf)
    (hb : mayMutate E own (mu && X.nothrow) p s = .ok s false) (hB : 0 < c.B) :
    Out (sliceLeafLeft c E X own mu p sh idx s) (fun s' r => r.1 = res.1 ∧ Inv (sys c E u) s'.mem O (⟨r.2, .node res.2, t, false⟩ :: Lf) ∧ Kept (sys c E u) O Lf s.mem s'.mem)
      (fun s' => Gone c E u O L s.mem s'.mem) := by
  obtain ⟨hn, hc, h1, h2, hix⟩ := PosOK.leaf (show PosOK c 0 (sh.pos N) (els 0 N) from hf)
  have e1 := hix idx idx IdxOK.of_eq hi
  have hN := hn
  rw [pos_node] at hN
  simp only [Rrb.sliceLeft, e1, hn, Rrb.copyLeafI, Node.leaf?, hc, Option.bind_eq_bind, Option.bind_some] at hv
  rw [slice_ok (by omega) (Nat.le_refl _)] at hv
  simp only [Option.bind_some, mkLeaf] at hv
  rw [if_pos (by simp; omega), List.take_of_length_le (by simp)] at hv
  cases hv
  rw [pos_index] at e1
  rw [pos_count] at hc
  unfold sliceLeafLeft
  rw [bind_ok (liftO_eq e1), bind_ok hb, if_neg (by simp), hc]
  rw [hN] at ha
  refine out_bind (copyLeafI_out hE h ha rfl (by omega) ht) ?_
  rintro s1 n ⟨hi1, hk1⟩
  have hi1 := VecHeap.retok hi1 (fun _ => rfl) false (fun h => by cases h)
  have hd := rest_decR (X' := [_]) (l := 0) (sh := .reg sh) hB (hr.kept hk1) hf hi1
  unfold decR at hd
  refine out_bind (out_mono hd (fun _ _ h => h) (fun _ h => h.elim)) ?_
  intro s2 _ hg
  exact ⟨rfl, hg.1, (hk1.mono hr.sub (fun _ h => h)).trans (hg.2.mono (fun x hx => List.mem_append_right _ hx) (fun _ h => h))⟩

theorem sliceLeft_coll {collapse : Bool} {P : Pos T} : Rrb.sliceLeft c collapse 0 P idx = Rrb.sliceLeft c false 0 P idx := by
  simp only [Rrb.sliceLeft]

/-- `slice_left_visitor`, also of the visitor that mutates for nodes of others -/
theorem sliceLeftNew_out (hB : 0 < c.B) (hE : E.Fresh) {X : Elem T} (ht : E.gc = true → own.getD 0 = t) : ∀ (l : Nat) (O : List Nat) (collapse : Bool) (s : St Dat T) (p : Nat) (sh : RShp) (N : Node T) (idx : Nat)
    (res : Nat × Node T), RFits c l sh N → SubPos (sh.pos N) → (els l N).length ≤ 2 ^ 32 → (∀ l', l' + 1 ≤ l → c.BL + c.B * l' < 32) → idx < (els l N).length → Rrb.sliceLeft c collapse l (sh.pos N) idx = some res →
    Inv (sys c E u) s.mem O L → At (sys c E u) s.mem L p (.node N) → 
    Out (sliceLeftR c E X own false collapse l p sh idx s) (fun s' r => r.1 = res.1 ∧ Inv (sys c E u) s'.mem O (⟨r.2, .node res.2, t, false⟩ :: L) ∧ Kept (sys c E u) O L s.mem s'.mem)
      (fun s' => Gone c E u O L s.mem s'.mem)
  | 0, O, collapse, s, p, .rel i sz, N, idx, res, hf, hsub, h32, hs, hi, hv, h, ha => hf.rel0.elim
  | 0, O, collapse, s, p, .reg sh, N, idx, res, hf, hsub, h32, hs, hi, hv, h, ha => by
    obtain ⟨_, _, hleaf, _⟩ := Fits.leaf hf
    unfold sliceLeftR
    rw [if_pos hleaf]
    rw [sliceLeft_coll] at hv
    exact sliceLeafLeft_out hE ht hf hi hv h ha (.inl ⟨rfl, rfl⟩) mayMutate_false hB
  | l + 1, O, collapse, s, p, sh, N, idx, res, hf, hsub, h32, hs, hi, hv, h, ha => by
    refine sliceLeftShared_out hB hE ht hf hsub h32 (hs l (Nat.le_refl _)) hi hv h ha (.inl ⟨rfl, rfl⟩) mayMutate_false ?_
    intro O' s' col x sh' q j v a1 a2 a3 a4 a5 a6 a7 a8
    exact sliceLeftNew_out hB hE ht l O' col s' q sh' x j v a1 a2 a3 (fun l' hl => hs l' (by omega)) a4 a5 a6 a7

end
end FlexHeap
