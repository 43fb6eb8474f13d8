import Verif.FlexHeap.Shapes

/-!
# Releasing relaxed nodes
-/

namespace FlexHeap
open Mm Rrb VecHeap

variable {T : Type} {c : Cfg} {E : Env Dat T} {u : Toks E.gc} {O : List Nat} {L : List (Ref (Val T))}

section
variable {s : St Dat T} {m m' : Mem Dat T} {p n t l : Nat} {Ns : List (Node T)} {N : Node T} {ks sz : List Nat} {cl : Cell Dat T} {r tr : Ref (Val T)} {sh : RShp}

theorem bind_assoc' {α β γ : Type} (x : HM T α) (f : α → HM T β) (g : β → HM T γ) (s : St Dat T) : (x.bind fun a => (f a).bind g) s = ((x.bind f).bind g) s := by
  unfold M.bind
  cases x s <;> rfl

/-- the loop over the children of a relaxed node -/
theorem relEach_out (hB : 0 < c.B) {f : Nat → RShp → HM T Unit} {Q : List (Ref (Val T))}
    (hf : ∀ (s : St Dat T) (L : List (Ref (Val T))) (r : Ref (Val T)) (sh : RShp) (N : Node T), r.val = .node N → RFits c l sh N → Inv (sys c E u) s.mem O (r :: L) →
      Out (f r.ptr sh s) (fun s' _ => Gone c E u O L s.mem s'.mem) (fun _ => False)) :
    ∀ (Lc : List (Ref (Val T))) (Ns : List (Node T)) (rest : List Nat) (a : Nat) (s : St Dat T), Lc.map Ref.val = Ns.map Val.node → (∀ x ∈ Ns, WF c l x) →
    Inv (sys c E u) s.mem O (Lc ++ Q) →
    Out (relEach c f (c.BL + c.B * l) a (Lc.map Ref.ptr ++ rest) (psums a (Ns.map fun x => (els l x).length)) s) (fun s' _ => Gone c E u O Q s.mem s'.mem) (fun _ => False) := by
  intro Lc
  induction Lc with
  | nil =>
    intro Ns rest a s hv hw h
    have : Ns = [] := List.map_eq_nil_iff.mp hv.symm
    subst this
    simp only [List.map_nil, psums, relEach]
    exact ⟨h, .refl⟩
  | cons r Lc ih =>
    intro Ns rest a s hv hw h
    cases Ns with
    | nil => cases hv
    | cons N Ns =>
      simp only [List.map_cons, List.cons.injEq] at hv
      have hden := h.den (r := r) (by simp)
      rw [hv.1] at hden
      simp only [List.map_cons, psums, List.cons_append, relEach, Nat.add_sub_cancel_left]
      rw [bind_ok (kidRel_den hB hden (hw N List.mem_cons_self))]
      refine out_bind (hf s _ r _ N hv.1 (kidSh_fits hB (hw N List.mem_cons_self) rfl) h) ?_
      intro s1 _ hg
      refine out_mono (ih Ns rest _ s1 hv.2 (fun x hx => hw x (List.mem_cons_of_mem _ hx)) hg.1) ?_ (fun _ h => h)
      intro s2 _ hg2
      exact ⟨hg2.1, (hg.2.mono (fun x hx => List.mem_append_right _ hx) (fun _ h => h)).trans hg2.2⟩

theorem tableRoom_rc (hg : E.gc = false) : tableRoom c E n = 2 ^ c.B := by unfold tableRoom; rw [hg]; rfl

/-- releasing a table -/
theorem decTable_out (hr : r.val = .table sz) (h : Inv (sys c E u) s.mem O (r :: L)) {f : HM T Unit}
    (hf : ∀ (s1 : St Dat T) (ct : Cell Dat T), E.gc = false → s1.mem r.ptr = some ct → ct.data = .table (2 ^ c.B) sz → f s1 = dealloc room r.ptr 0 (tableSz (2 ^ c.B)) s1) :
    Out (((dec E r.ptr).bind fun last => if last then f else M.ret ()) s) (fun s' _ => Gone c E u O L s.mem s'.mem) (fun _ => False) := by
  refine dec_ref h ?_
  intro s1 cl Lo hg hc ho hok hi
  rw [hr] at hok
  obtain ⟨cap, hd, he, hcap, _, hv⟩ := okD_table hok
  have : Lo = [] := List.map_eq_nil_iff.mp hv
  subst this
  rw [hcap hg] at hd
  rw [hf s1 cl hg hc hd]
  exact dealloc_open hi hc (by rw [he]; rfl) (by rw [hd]; rfl)

/-- `delete_inner_r` of a node that was taken apart, when counting references -/
theorem delInnerR_rc (hg : E.gc = false) (h : Inv (sys c E u) s.mem (p :: O) (tr :: L)) (hc : s.mem p = some cl) (hd : cl.data = .inner (2 ^ c.B) (some tr.ptr) ks) (he : cl.els = [])
    (htr : tr.val = .table sz) : Out (delInnerR c E p n s) (fun s' _ => Gone c E u O L s.mem s'.mem) (fun _ => False) := by
  unfold delInnerR
  rw [bind_ok (theTable_eq hc hd), bind_assoc']
  refine out_bind (decTable_out htr h ?_) ?_
  · intro s1 ct _ hct _
    rw [bind_ok (cell_eq hct), hg, tableRoom_rc hg]
    rfl
  · intro s2 _ hg2
    have hc2 : s2.mem p = some cl := (hg2.2.2 p List.mem_cons_self).trans hc
    refine out_mono (delInner_open hg2.1 hc2 hd he ?_) ?_ (fun _ h => h)
    · rw [hg, innerRoom_rc hg]; rfl
    · intro s3 _ hg3
      exact ⟨hg3.1, (Kept.open hg2.2).trans hg3.2⟩

/-- `dec_visitor` -/
theorem decR_out (hB : 0 < c.B) : ∀ (l : Nat) (O : List Nat) (L : List (Ref (Val T))) (s : St Dat T) (r : Ref (Val T)) (sh : RShp) (N : Node T), r.val = .node N → RFits c l sh N →
    Inv (sys c E u) s.mem O (r :: L) → Out (decR c E l r.ptr sh s) (fun s' _ => Gone c E u O L s.mem s'.mem) (fun _ => False)
  | l, O, L, s, r, .reg sh, N, hr, hf, h => by
    have := decV_out hB l O L s r sh N hr hf h
    cases l <;> exact this
  | 0, O, L, s, r, .rel sh sz, N, hr, hf, h => hf.rel0.elim
  | l + 1, O, L, s, r, .rel sh sz, N, hr, hf, h => by
    obtain ⟨Ns, rfl, rfl, h1, h2, h3, h4⟩ := hf.rel
    unfold decR
    refine dec_ref h ?_
    intro s1 cl Lo hg hc ho hok hi
    rw [hr] at hok
    obtain ⟨cap, tr, Lc, rfl, hd, he, hcap, hl, htr, hv⟩ := okD_innerR hok ho
    rw [hcap hg] at hd
    rw [bind_ok (kids_eq hc hd)]
    have hp : (tr :: Lc ++ L).Perm (Lc ++ tr :: L) := List.perm_middle.symm
    have hrel := relEach_out hB (fun s L r sh N a b h => decR_out hB l _ L s r sh N a b h) Lc Ns [] 0 s1 hv h3 (hi.permL hp)
    rw [List.append_nil, ← h4] at hrel
    refine out_bind hrel ?_
    intro s2 _ hg2
    have hc2 : s2.mem r.ptr = some cl := (hg2.2.2 r.ptr List.mem_cons_self).trans hc
    refine out_mono (delInnerR_rc hg hg2.1 hc2 hd he htr) ?_ (fun _ h => h)
    intro s3 _ hg3
    exact ⟨hg3.1, (Kept.tail (Kept.open hg2.2)).trans hg3.2⟩

/-- `dec_inner` -/
theorem decInner_out (hB : 0 < c.B) {size : Nat} (hr : r.val = .node N) (hw : WF c (l + 1) N) (hs : size = (els (l + 1) N).length) (h : Inv (sys c E u) s.mem O (r :: L)) :
    Out (decInner c E (l + 1) r.ptr (c.BL + c.B * l) size s) (fun s' _ => Gone c E u O L s.mem s'.mem) (fun _ => False) := by
  unfold decInner
  have hden := h.den (r := r) List.mem_cons_self
  rw [hr] at hden
  rw [bind_ok (maybeRel_wf hden hw)]
  exact decR_out hB _ O L s r _ N hr (subSh_fits hw hs) h

/-- releasing the children on the right of a relaxed node -/
theorem decRestR_out (hB : 0 < c.B) (hw : ∀ x ∈ Ns, WF c l x) (hsz : sz = psums 0 (Ns.map fun x => (els l x).length)) (hn0 : 0 < n) (hn : n ≤ Ns.length) {cap : Nat} {rel : Option Nat} {Lk Lc : List (Ref (Val T))}
    (hc : s.mem p = some cl) (hd : cl.data = .inner cap rel ks) (hks : ks = Lk.map Ref.ptr ++ Lc.map Ref.ptr) (hlk : Lk.length = n) (hv : Lc.map Ref.val = (Ns.drop n).map Val.node)
    (h : Inv (sys c E u) s.mem O (Lc ++ L)) :
    Out (decRestR c E l p (c.BL + c.B * l) sz n s) (fun s' _ => Gone c E u O L s.mem s'.mem) (fun _ => False) := by
  have hlen : sz.length = Ns.length := by rw [hsz, psums_length, List.length_map]
  have h1 : Pos.szBefore sz n = some (before l Ns n) := by
    rw [hsz, szBefore_psums _ _ (by simpa using hn), before_eq_sum]
  unfold decRestR
  rw [if_pos ⟨hn0, by omega⟩, bind_ok (liftO_eq h1), bind_ok (kids_eq hc hd), hks, List.drop_left' (by simpa using hlk)]
  have hdrop : sz.drop n = psums (before l Ns n) ((Ns.drop n).map fun x => (els l x).length) := by
    rw [hsz, psums_drop, Nat.zero_add, List.map_drop, before_eq_sum]
  have := relEach_out hB (fun s L r sh N a b h => decR_out hB l _ L s r sh N a b h) Lc (Ns.drop n) [] (before l Ns n) s hv (fun x hx => hw x (List.mem_of_mem_drop hx)) h
  rw [List.append_nil] at this
  rw [hdrop]
  exact this

/-- releasing the first children of a relaxed node -/
theorem decFirstR_out (hB : 0 < c.B) (hw : ∀ x ∈ Ns, WF c l x) (hsz : sz = psums 0 (Ns.map fun x => (els l x).length)) (hn : n ≤ Ns.length) {cap : Nat} {rel : Option Nat} {Lc Lk : List (Ref (Val T))}
    (hc : s.mem p = some cl) (hd : cl.data = .inner cap rel ks) (hks : ks = Lc.map Ref.ptr ++ Lk.map Ref.ptr) (hv : Lc.map Ref.val = (Ns.take n).map Val.node)
    (h : Inv (sys c E u) s.mem O (Lc ++ L)) :
    Out (decFirst c E l p (.rel (c.BL + c.B * l) sz) n s) (fun s' _ => Gone c E u O L s.mem s'.mem) (fun _ => False) := by
  have hlen : sz.length = Ns.length := by rw [hsz, psums_length, List.length_map]
  have hs : slice sz 0 n = some (psums 0 ((Ns.take n).map fun x => (els l x).length)) := by
    unfold slice
    rw [if_pos ⟨Nat.zero_le _, by omega⟩, List.drop_zero, Nat.sub_zero, hsz, psums_take, List.map_take]
  simp only [decFirst]
  rw [bind_ok (liftO_eq hs), bind_ok (kids_eq hc hd), hks]
  exact relEach_out hB (fun s L r sh N a b h => decR_out hB l _ L s r sh N a b h) Lc (Ns.take n) _ 0 s hv (fun x hx => hw x (List.mem_of_mem_take hx)) h

/-- releasing the first children of a regular node -/
theorem decFirstReg_out (hB : 0 < c.B) {sh : Shp} (hf : Fits c (l + 1) sh (.inner none Ns)) (hn : n < Ns.length) {cap : Nat} {rel : Option Nat} {Lc Lk : List (Ref (Val T))}
    (hc : s.mem p = some cl) (hd : cl.data = .inner cap rel ks) (hks : ks = Lc.map Ref.ptr ++ Lk.map Ref.ptr) (hv : Lc.map Ref.val = (Ns.take n).map Val.node)
    (h : Inv (sys c E u) s.mem O (Lc ++ L)) :
    Out (decFirst c E l p (.reg sh) n s) (fun s' _ => Gone c E u O L s.mem s'.mem) (fun _ => False) := by
  obtain ⟨ds, e, sf, sl, h0, hk⟩ := hf.kids hB
  cases h0
  have hn' : n ≤ ds.length := by simpa using Nat.lt_succ_iff.mp (by simpa using hn)
  have htake : (ds ++ [e]).take n = ds.take n := List.take_append_of_le_length hn'
  rw [htake] at hv
  have hleft : eachLeft c sh n = some (List.replicate n (Shp.kidFull c (c.BL + c.B * l))) ∧ ∀ d ∈ ds, Fits c l (Shp.kidFull c (c.BL + c.B * l)) d := by
    refine ⟨?_, ?_⟩
    · have hcnt := hk.count
      have hsh := hk.shift
      have hnl := hk.notLeaf
      have hle := hk.le
      cases sh with
      | reg s size => have hsh : s = _ := hsh; subst hsh; simp only [eachLeft]; rw [if_pos (by omega)]
      | regSub s size => have hsh : s = _ := hsh; subst hsh; simp only [eachLeft]; rw [if_pos (by omega)]
      | full s => have hsh : s = _ := hsh; subst hsh; simp only [eachLeft]; rw [if_pos (by omega)]
      | leaf => cases hnl
      | leafSub => cases hnl
      | fullLeaf => cases hnl
    · intro d hd
      unfold Fits
      rw [pos_kidFull]
      exact kidFull_ok hB (hk.full d hd)
  simp only [decFirst]
  rw [bind_ok (liftO_eq hleft.1), bind_ok (kids_eq hc hd), hks]
  have hlc : Lc.length = n := by
    have := congrArg List.length hv
    simp only [List.length_map, List.length_take] at this
    omega
  have hshs : List.Forall₂ (Fits c l) (List.replicate n (Shp.kidFull c (c.BL + c.B * l))) (ds.take n) := by
    have := forall₂_replicate (R := Fits c l) (sf := Shp.kidFull c (c.BL + c.B * l)) (ds := ds.take n) (fun d hd => hleft.2 d (List.mem_of_mem_take hd))
    rwa [List.length_take, Nat.min_eq_left hn'] at this
  have heach : ∀ (f : Nat → Shp → HM T Unit) (A B : List Nat) (shs : List Shp), shs.length = A.length → eachDo f (A ++ B) shs = eachDo f A shs := by
    intro f A
    induction A with
    | nil =>
      intro B shs hl
      have : shs = [] := List.length_eq_zero_iff.mp hl
      subst this
      cases B <;> rfl
    | cons a A ih =>
      intro B shs hl
      cases shs with
      | nil => cases hl
      | cons x shs =>
        simp only [List.cons_append, eachDo]
        rw [ih B shs (by simpa using hl)]
  rw [heach _ _ _ _ (by simp [hlc])]
  exact eachDo_out (R := Fits c l) (fun s L r sh N a b h => decV_out hB l _ L s r sh N a b h) Lc _ _ s hv hshs h

end
end FlexHeap
