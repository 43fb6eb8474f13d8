import Verif.ChampHeap.Persist

/-!
# Changing nodes in place

The `move_…` helpers, on a node the caller has to itself, possibly with its array of values.
-/

namespace ChampHeap
open Mm Champ

variable {w : Nat} {T : Type} {E : Env (Dat w) T} {k : Toks E.gc} {O O1 : List Nat} {L L1 X : List (Ref (Val w T))}

section
variable {s : St (Dat w) T} {p v dst e n nv off i ht : Nat} {nm dm nm' dm' : BitVec w} {xs xs' : List T} {Ns Ns' : List (Node w T)} {vo : Option Nat} {cs : List Nat}
  {cl cv : Cell (Dat w) T} {Lv Lc : List (Ref (Val w T))}

/-- An inner node that is not shared, and may be changed. -/
structure Opened (E : Env (Dat w) T) (k : Toks E.gc) (e : Nat) (m : Mem (Dat w) T) (O : List Nat) (L : List (Ref (Val w T))) (p : Nat) (nm dm : BitVec w) (xs : List T)
    (Ns : List (Node w T)) (cl : Cell (Dat w) T) (vo : Option Nat) (cs : List Nat) (Lv Lc : List (Ref (Val w T))) : Prop where
  cell : m p = some cl
  data : cl.data = .inner ⟨nm, dm, vo, cs⟩
  els : cl.els = []
  xlen : xs.length = popcount dm
  nlen : Ns.length = popcount nm
  clen : cs.length = popcount nm
  vsome : vo.isSome = !xs.isEmpty
  parts : Parts vo cs xs Ns Lv Lc
  inv : Inv (sys E k) m (p :: O) (Lv ++ (Lc ++ L))
  toks : ∀ x ∈ Lv ++ Lc, x.tok = cl.tok
  ctok : E.gc = true → cl.tok = e
  rc : E.gc = false → cl.rc = 1

theorem mutable_cases (h : mutable E e cl = true) : (E.gc = true → cl.tok = e) ∧ (E.gc = false → cl.rc = 1) := by
  unfold mutable at h
  cases hg : E.gc with
  | true => rw [hg, if_pos rfl] at h; exact ⟨fun _ => by simpa using h, fun h => by cases h⟩
  | false => rw [hg] at h; exact ⟨(fun h => by cases h), fun _ => by simpa using h⟩

theorem mutable_open (he : E.gc = true → k.live e) (h : mutable E e cl = true) : (E.gc = false ∧ cl.rc = 1) ∨ k.live cl.tok := by
  obtain ⟨h1, h2⟩ := mutable_cases h
  by_cases hg : E.gc = true
  · exact .inr (by rw [h1 hg]; exact he hg)
  · exact .inl ⟨Bool.eq_false_iff.mpr hg, h2 (Bool.eq_false_iff.mpr hg)⟩

theorem open_inner {t : Nat} {b : Bool} (he : E.gc = true → k.live e) (h : Inv (sys E k) s.mem O (⟨p, .node (.inner nm dm xs Ns), t, b⟩ :: L)) (hc : s.mem p = some cl)
    (hm : mutable E e cl = true) : ∃ vo cs Lv Lc, Opened E k e s.mem O L p nm dm xs Ns cl vo cs Lv Lc := by
  obtain ⟨Lo, ho, hok, htk, hi⟩ := h.open_ hc (by rcases mutable_open he hm with h | h; exacts [.inl h, .inr (.inl h)])
  obtain ⟨vo, cs, hd, hels, hin⟩ := okD_inner hok
  have hp : vo.toList ++ cs = Lo.map Ref.ptr := by
    rw [← ho, hd]; rfl
  obtain ⟨Lv, Lc, rfl, hpt⟩ := parts hin hp
  obtain ⟨h1, h2, h3, h4, _⟩ := hin
  exact ⟨vo, cs, Lv, Lc, hc, hd, hels, h1, h2, h3, h4, hpt, by rw [← List.append_assoc]; exact hi, htk, (mutable_cases hm).1, (mutable_cases hm).2⟩

theorem live_gc {t : Nat} (h : k.live t) : E.gc = true := by
  cases hg : E.gc with
  | true => rfl
  | false => exact absurd h (k.liveGc hg t)

theorem Opened.close {m : Mem (Dat w) T} {t : Nat} (h : Opened E k e m O L p nm dm xs Ns cl vo cs Lv Lc) (ht : E.gc = true → t = e) :
    Inv (sys E k) m O (⟨p, .node (.inner nm dm xs Ns), t, true⟩ :: L) := by
  refine Inv.close (Lo := Lv ++ Lc) (by rw [List.append_assoc]; exact h.inv) h.cell h.rc ?_ ?_ ?_ ?_
  · show outsD cl.data = _
    rw [h.data, List.map_append, h.parts.vptr, h.parts.cptr]; rfl
  · show okD cl.data cl.els _ _
    rw [h.data]
    refine ⟨h.els, xs, Ns, rfl, h.xlen, h.nlen, h.clen, h.vsome, ?_⟩
    rw [List.map_append, h.parts.vval, h.parts.cval]
  · intro hl
    rw [h.ctok (live_gc hl), ht (live_gc hl)]
  · intro r hr c' _ _
    exact h.toks r hr

/-- the array of values of a node, not shared either -/
structure OpenedV (E : Env (Dat w) T) (k : Toks E.gc) (e : Nat) (m : Mem (Dat w) T) (O : List Nat) (L : List (Ref (Val w T))) (p : Nat) (nm dm : BitVec w)
    (cl : Cell (Dat w) T) (v : Nat) (cs : List Nat) (Lc : List (Ref (Val w T))) (cv : Cell (Dat w) T) : Prop where
  cell : m p = some cl
  data : cl.data = .inner ⟨nm, dm, some v, cs⟩
  els : cl.els = []
  vcell : m v = some cv
  vdata : cv.data = .vals
  inv : Inv (sys E k) m (v :: p :: O) (Lc ++ L)
  vtok : E.gc = true → cv.tok = e
  vrc : E.gc = false → cv.rc = 1

theorem Opened.openV {m : Mem (Dat w) T} (he : E.gc = true → k.live e) (h : Opened E k e m O L p nm dm xs Ns cl (some v) cs Lv Lc) (hc : m v = some cv) (hm : mutable E e cv = true) :
    OpenedV E k e m O L p nm dm cl v cs Lc cv ∧ cv.els = xs.map .live := by
  have hi := h.inv
  have hvp := h.parts.vptr
  have hvv := h.parts.vval
  cases Lv with
  | nil => cases hvp
  | cons r Lv =>
    simp only [Option.toList_some, List.map_cons, List.cons.injEq, List.map_eq_nil_iff, List.map_nil] at hvp
    obtain ⟨rfl, rfl⟩ := hvp
    simp only [Option.toList_some, List.map_cons, List.map_nil, List.cons.injEq, and_true] at hvv
    obtain ⟨Lo, ho, hok, htk, hi⟩ := Inv.open_ (r := r) hi hc (by rcases mutable_open he hm with h | h; exacts [.inl h, .inr (.inl h)])
    rw [hvv] at hok
    obtain ⟨h1, h2, h3⟩ := okD_vals hok
    have : Lo = [] := List.map_eq_nil_iff.mp h3
    subst this
    exact ⟨⟨h.cell, h.data, h.els, hc, h1, hi, (mutable_cases hm).1, (mutable_cases hm).2⟩, h2⟩

/-- release of an inner node, with its array of values -/
theorem deleteInner_openV (h : Inv (sys E k) s.mem (v :: p :: O) L) (hc : s.mem p = some cl) (hd : cl.data = .inner ⟨nm, dm, some v, cs⟩) (he : cl.els = [])
    (hv : s.mem v = some cv) (hvd : cv.data = .vals) (hx : cv.els.length = popcount dm) (hth : ∀ x ∈ cv.els, x.there = true) (hrc : E.gc = false → cv.rc = 1) (hn : cs.length = popcount nm) :
    Out (deleteInner E p s) (fun s' _ => Gone E k O L s.mem s'.mem) (fun _ => False) := by
  have hvp : v ≠ p := by
    have := h.open_nodup
    simp only [List.nodup_cons, List.mem_cons, not_or] at this
    exact this.1.1
  unfold deleteInner
  rw [bind_ok (getI_eq hc hd)]
  simp only
  refine out_bind (Q := fun s' _ => Gone E k (p :: O) L s.mem s'.mem) ?_ ?_
  · cases hg : E.gc with
    | true =>
      rw [bind_ok (dec_gc hg hv)]
      exact ⟨h.forget hg, .refl⟩
    | false =>
      rw [bind_ok (dec_rc hg hv (by rw [hrc hg]; omega)), if_pos (by simp [hrc hg])]
      refine out_mono (deleteValues_open (s := { s with mem := _ }) (p := v) (c := { cv with rc := cv.rc - 1 }) (h.write List.mem_cons_self _) upd_self hvd hx hth) ?_ (fun _ h => h)
      intro s' _ hG
      exact ⟨hG.1, (Kept.write h _).trans hG.2⟩
  · intro s1 _ hg
    unfold deallocInner
    have hc1 : s1.mem p = some cl := (hg.2.2 p List.mem_cons_self).trans hc
    refine out_mono (dealloc_open hg.1 hc1 (n := 0) (by rw [he]; rfl) (by rw [hd]; exact hn)) ?_ (fun _ h => h)
    intro s' _ hg'
    exact ⟨hg'.1, (hg.2.mono (fun _ h => h) (fun _ h => List.mem_cons_of_mem _ h)).trans hg'.2⟩

theorem swap3 {α : Type} (a b c : List α) : (a ++ (b ++ c)).Perm (b ++ (a ++ c)) := by
  rw [← List.append_assoc, ← List.append_assoc]
  exact List.perm_append_comm.append_right c

/-- what comes after a node has been built -/
theorem BuiltV.after {cvt ct : Nat} (h : BuiltV E k s.mem (O1 ++ O) (L1 ++ L) dst nm dm xs Ns cvt ct ht) {f : HM w T Unit}
    (hf : ∀ O' L', Inv (sys E k) s.mem (O1 ++ O') (L1 ++ L') → Out (f s) (fun s' _ => Gone E k O' L' s.mem s'.mem) (fun _ => False)) :
    Out (f s) (fun s' _ => BuiltV E k s'.mem O L dst nm dm xs Ns cvt ct ht ∧ Kept (sys E k) O L s.mem s'.mem) (fun _ => False) := by
  obtain ⟨vo, Lc, h1, h2, h3, h4, h5, h6, h7, h8⟩ := h
  refine out_mono (hf (vo.toList ++ dst :: O) (Lc ++ L) (h2.perm ?_ ?_)) ?_ (fun _ h => h)
  · have := swap3 (vo.toList ++ [dst]) O1 O
    simpa using this
  · exact swap3 Lc L1 L
  · rintro s' _ ⟨hg, hk⟩
    refine ⟨⟨vo, Lc, ?_, hg, h3, ?_, h5, h6, h7, h8⟩, hk.mono (fun _ h => List.mem_append_right _ h) (fun _ h => List.mem_append_right _ (List.mem_cons_of_mem _ h))⟩
    · rw [hk.2 dst (List.mem_append_right _ List.mem_cons_self)]; exact h1
    · intro v hv
      rw [hk.2 v (List.mem_append_left _ (Option.mem_toList.mpr hv))]; exact h4 v hv

/-- a new node that takes over the children `X`, and then the old one is released -/
theorem move_out (hE : E.Fresh) (h : Inv (sys E k) s.mem (O1 ++ O) (X ++ (L1 ++ L))) (hx : xs'.length = nv) (hxd : nv = popcount dm') {Y : Option (Nat × Cell (Dat w) T)}
    (hY : ∀ y ∈ Y, y.1 ∈ O1 ∧ nv ≠ 0) {fill : Nat → HM w T Unit}
    (hfill : nv ≠ 0 → ∀ p v s1, s.mem p = none → s.mem v = none → Inv (sys E k) s1.mem (v :: p :: (O1 ++ O)) (X ++ (L1 ++ L)) → s1.mem v = some ⟨1, 0, List.replicate nv .raw, .vals⟩ →
      (∀ q, q ≠ v → q ≠ p → s1.mem q = s.mem q) →
      Out (fill v s1) (fun s2 _ => s2.mem = upd (poke Y s1.mem) v (some ⟨1, 0, xs'.map .live, .vals⟩)) (fun s2 => s2.mem = s1.mem))
    {kids : Nat → HM w T Unit} {Lc' : List (Ref (Val w T))}
    (hkids : ∀ dst s1 vo', s1.mem dst = some ⟨1, 0, [], .inner ⟨nm', dm', vo', List.replicate n 0⟩⟩ →
      kids dst s1 = .ok { s1 with mem := upd s1.mem dst (some ⟨1, 0, [], .inner ⟨nm', dm', vo', Lc'.map Ref.ptr⟩⟩) } ())
    (hp : Lc'.Perm X) (hX : ∀ x ∈ X, x.tok = 0 ∨ x.tok = ht) (hN : Lc'.map Ref.val = Ns'.map Val.node) (h2 : Ns'.length = popcount nm') {f : HM w T Unit}
    (hf : ∀ s2 O' L', (∀ q c, s.mem q = some c → s2.mem q = poke Y s.mem q) → Inv (sys E k) s2.mem (O1 ++ O') (L1 ++ L') →
      Out (f s2) (fun s' _ => Gone E k O' L' s2.mem s'.mem) (fun _ => False)) :
    Out (((buildInner E n nv nm' dm' fill).bind fun dst => (kids dst).bind fun _ => f.bind fun _ => M.ret dst) s)
      (fun s' dst => BuiltV E k s'.mem O L dst nm' dm' xs' Ns' 0 0 ht ∧ Kept (sys E k) O L s.mem s'.mem) (fun s' => s'.mem = s.mem) := by
  have hYO : ∀ y ∈ Y, y.1 ∉ O := fun y hy => h.notin_open (hY y hy).1
  refine out_bind (buildInner_out hE h hx (fun y hy => ⟨List.mem_append_left _ (hY y hy).1, (hY y hy).2⟩) hfill) ?_
  rintro s1 dst ⟨vo', hfr⟩
  rw [bind_ok (hkids dst s1 vo' hfr.cell)]
  have hfin := Fresh.finish (X := X) (L := L1 ++ L) (ht := ht) hfr (Li := []) (Lc := Lc') (fun x hx => by cases hx) (by simpa using hp) hX hN (hx.trans hxd) h2
  simp only [List.map_nil, incs_nil] at hfin
  have hframe : ∀ q c, s.mem q = some c → upd s1.mem dst (some ⟨1, 0, [], .inner ⟨nm', dm', vo', Lc'.map Ref.ptr⟩⟩) q = poke Y s.mem q := by
    intro q c hq
    have hne : q ≠ dst := not_eq_of_alloc hq hfr.new.1
    rw [upd_ne hne]
    refine hfr.frame q hne ?_
    intro hv
    rw [(hfr.new.2 q hv).1] at hq; cases hq
  have hk1 : Kept (sys E k) O L s.mem (upd s1.mem dst (some ⟨1, 0, [], .inner ⟨nm', dm', vo', Lc'.map Ref.ptr⟩⟩)) := by
    refine Kept.mono (L' := X ++ (L1 ++ L)) (O' := O) ?_ (fun _ h => List.mem_append_right _ (List.mem_append_right _ h)) (fun _ h => h)
    refine Kept.of h (Y.toList.map Prod.fst) ?_ ?_ ?_
    · intro q hq
      obtain ⟨y, hy, rfl⟩ := List.mem_map.mp hq
      exact .inl (List.mem_append_left _ (hY y (Option.mem_toList.mp hy)).1)
    · intro q hq c hc
      refine ⟨c, ?_, .rfl'⟩
      rw [hframe q c hc, poke_ne, hc]
      rintro y hy rfl
      exact hq (List.mem_map.mpr ⟨y, Option.mem_toList.mpr hy, rfl⟩)
    · intro a ha
      obtain ⟨c, hc⟩ := h.open_alloc (List.mem_append_right _ ha)
      rw [hframe a c hc, poke_ne]
      rintro y hy rfl
      exact hYO y hy ha
  refine out_bind (out_mono (hfin.1.after (s := { s1 with mem := _ }) (f := f) fun O' L' hi => hf { s1 with mem := _ } O' L' hframe hi) (fun _ _ h => h) fun _ h => h.elim) ?_
  rintro s2 _ ⟨hb, hk⟩
  exact ⟨hb, hk1.trans hk⟩

/-- the values that are left, moved or copied -/
theorem fillRemove_openV {z : Slot T} (h : OpenedV E k e s.mem O L p nm dm cl v cs Lc cv) (hels : cv.els = (xs.take off).map .live ++ z :: (xs.drop (off + 1)).map .live)
    (hx : xs.length = popcount dm) (ho : off < popcount dm) (hm : mutable E e cv = true) {q dv : Nat} {s1 : St (Dat w) T} (hq : s.mem q = none) (hdv : s.mem dv = none)
    (hc : s1.mem dv = some ⟨1, 0, List.replicate (popcount dm - 1) .raw, .vals⟩) (hfr : ∀ r, r ≠ dv → r ≠ q → s1.mem r = s.mem r) :
    Out (((valuesPtr p).bind fun sv => (canMutate E e sv).bind fun mv => fillRemove mv p off (popcount dm) dv) s1)
      (fun s2 _ => s2.mem = upd (poke (some (v, { cv with els := List.replicate off .moved ++ z :: List.replicate (popcount dm - (off + 1)) .moved })) s1.mem) dv
        (some ⟨1, 0, (xs.take off ++ xs.drop (off + 1)).map .live, .vals⟩)) (fun s2 => s2.mem = s1.mem) := by
  have hcp : s1.mem p = some cl := by rw [hfr p (not_eq_of_alloc h.cell hdv) (not_eq_of_alloc h.cell hq)]; exact h.cell
  have hcv : s1.mem v = some cv := by rw [hfr v (not_eq_of_alloc h.vcell hdv) (not_eq_of_alloc h.vcell hq)]; exact h.vcell
  rw [bind_ok (valuesPtr_eq hcp h.data rfl), bind_ok (canMutate_eq hcv), hm]
  obtain ⟨s', h1, h2⟩ := fillRemove_move (off := off) hcp h.data rfl hcv hels hx ho (not_eq_of_alloc h.vcell hdv) hc
  rw [h1]
  exact h2

theorem moved_there {z : Slot T} (hz : z.there = true) (a b : Nat) : ∀ x ∈ List.replicate a Slot.moved ++ z :: List.replicate b Slot.moved, x.there = true := by
  intro x hx
  rcases List.mem_append.mp hx with hx | hx
  · rw [List.eq_of_mem_replicate hx]; rfl
  · rcases List.mem_cons.mp hx with rfl | hx
    · exact hz
    · rw [List.eq_of_mem_replicate hx]; rfl

theorem there_split {z : Slot T} (hz : z.there = true) (a b : List T) : ∀ x ∈ a.map Slot.live ++ z :: b.map Slot.live, x.there = true := by
  intro x hx
  rcases List.mem_append.mp hx with hx | hx
  · exact live_there _ x hx
  · rcases List.mem_cons.mp hx with rfl | hx
    · exact hz
    · exact live_there _ x hx

/-- moving all but one of the values into a new node (values not shared) -/
theorem moveRemove_openV (hE : E.Fresh) {z : Slot T} (hz : z.there = true) (h : OpenedV E k e s.mem O L p nm dm cl v cs X cv)
    (hels : cv.els = (xs.take off).map .live ++ z :: (xs.drop (off + 1)).map .live) (hx : xs.length = popcount dm) (ho : off < popcount dm) (hm : mutable E e cv = true)
    (hcl : cs.length = popcount nm) (hdm : popcount dm' + 1 = popcount dm)
    {kids : Nat → HM w T Unit} {Lc' : List (Ref (Val w T))}
    (hkids : ∀ dst s1 vo', s1.mem dst = some ⟨1, 0, [], .inner ⟨nm', dm', vo', List.replicate n 0⟩⟩ →
      kids dst s1 = .ok { s1 with mem := upd s1.mem dst (some ⟨1, 0, [], .inner ⟨nm', dm', vo', Lc'.map Ref.ptr⟩⟩) } ())
    (hp : Lc'.Perm X) (hX : ∀ x ∈ X, x.tok = 0 ∨ x.tok = ht) (hN : Lc'.map Ref.val = Ns'.map Val.node) (h2 : Ns'.length = popcount nm') :
    Out (((buildInner E n (popcount dm - 1) nm' dm' fun dv => (valuesPtr p).bind fun sv => (canMutate E e sv).bind fun mv => fillRemove mv p off (popcount dm) dv).bind fun dst =>
        (kids dst).bind fun _ => (deleteInner E p).bind fun _ => M.ret dst) s)
      (fun s' dst => BuiltV E k s'.mem O L dst nm' dm' (xs.take off ++ xs.drop (off + 1)) Ns' 0 0 ht ∧ Kept (sys E k) O L s.mem s'.mem) (fun s' => s'.mem = s.mem) := by
  have hlen : (xs.take off ++ xs.drop (off + 1)).length = popcount dm - 1 := by
    have := length_erase (xs := xs) (n := off) (by rw [hx]; exact ho)
    rw [hx] at this; omega
  have hvp : v ≠ p := by
    have := h.inv.open_nodup
    simp only [List.nodup_cons, List.mem_cons, not_or] at this
    exact this.1.1
  by_cases h0 : popcount dm - 1 = 0
  · refine move_out (O1 := [v, p]) (L1 := []) (Y := none) hE h.inv hlen (by omega) (by intro y hy; cases hy) (fun hne => absurd h0 hne) hkids hp hX hN h2 ?_
    intro s2 O' L' hfr hi
    have e1 : s2.mem p = some cl := (hfr p cl h.cell).trans h.cell
    have e2 : s2.mem v = some cv := (hfr v cv h.vcell).trans h.vcell
    exact deleteInner_openV hi e1 h.data h.els e2 h.vdata (by rw [hels]; simp; omega) (by rw [hels]; exact there_split hz _ _) h.vrc hcl
  · refine move_out (O1 := [v, p]) (L1 := []) (Y := some (v, { cv with els := List.replicate off .moved ++ z :: List.replicate (popcount dm - (off + 1)) .moved })) hE h.inv hlen (by omega)
      (by intro y hy; cases hy; exact ⟨List.mem_cons_self, h0⟩) (fun _ q dv s1 hq hdv hi hc hfr => fillRemove_openV h hels hx ho hm hq hdv hc hfr) hkids hp hX hN h2 ?_
    intro s2 O' L' hfr hi
    have e1 : s2.mem p = some cl := by rw [hfr p cl h.cell, poke_ne (by intro y hy; cases hy; exact hvp.symm)]; exact h.cell
    have e2 : s2.mem v = some _ := (hfr v cv h.vcell).trans upd_self
    exact deleteInner_openV hi e1 h.data h.els e2 h.vdata (by simp; omega) (moved_there hz _ _) h.vrc hcl

/-- moving the values and a new one into a new node (values not shared) -/
theorem moveInsert_openV (hE : E.Fresh) (h : OpenedV E k e s.mem O L p nm dm cl v cs X cv) (y : T)
    (hels : cv.els = xs.map .live) (hx : xs.length = popcount dm) (h0 : popcount dm ≠ 0) (ho : off ≤ popcount dm) (hm : mutable E e cv = true)
    (hcl : cs.length = popcount nm) (hdm : popcount dm' = popcount dm + 1)
    {kids : Nat → HM w T Unit} {Lc' : List (Ref (Val w T))}
    (hkids : ∀ dst s1 vo', s1.mem dst = some ⟨1, 0, [], .inner ⟨nm', dm', vo', List.replicate n 0⟩⟩ →
      kids dst s1 = .ok { s1 with mem := upd s1.mem dst (some ⟨1, 0, [], .inner ⟨nm', dm', vo', Lc'.map Ref.ptr⟩⟩) } ())
    (hp : Lc'.Perm X) (hX : ∀ x ∈ X, x.tok = 0 ∨ x.tok = ht) (hN : Lc'.map Ref.val = Ns'.map Val.node) (h2 : Ns'.length = popcount nm') :
    Out (((buildInner E n (popcount dm + 1) nm' dm' fun dv => (mutateValues E e p (popcount dm)).bind fun mv => fillInsert mv p off (popcount dm) y dv).bind fun dst =>
        (kids dst).bind fun _ => (deleteInner E p).bind fun _ => M.ret dst) s)
      (fun s' dst => BuiltV E k s'.mem O L dst nm' dm' (xs.take off ++ y :: xs.drop off) Ns' 0 0 ht ∧ Kept (sys E k) O L s.mem s'.mem) (fun s' => s'.mem = s.mem) := by
  have hlen : (xs.take off ++ y :: xs.drop off).length = popcount dm + 1 := by
    rw [length_insert (by rw [hx]; exact ho), hx]
  have hvp : v ≠ p := by
    have := h.inv.open_nodup
    simp only [List.nodup_cons, List.mem_cons, not_or] at this
    exact this.1.1
  refine move_out (O1 := [v, p]) (L1 := []) (Y := some (v, { cv with els := List.replicate (popcount dm) .moved })) hE h.inv hlen (by omega)
    (by intro y hy; cases hy; exact ⟨List.mem_cons_self, by omega⟩) ?_ hkids hp hX hN h2 ?_
  · intro _ q dv s1 hq hdv hi hc hfr
    have hcp : s1.mem p = some cl := by rw [hfr p (not_eq_of_alloc h.cell hdv) (not_eq_of_alloc h.cell hq)]; exact h.cell
    have hcv : s1.mem v = some cv := by rw [hfr v (not_eq_of_alloc h.vcell hdv) (not_eq_of_alloc h.vcell hq)]; exact h.vcell
    unfold mutateValues
    rw [if_neg h0]
    rw [bind_ok (show ((valuesPtr p).bind fun sv => canMutate E e sv) s1 = .ok s1 true by rw [bind_ok (valuesPtr_eq hcp h.data rfl), canMutate_eq hcv, hm])]
    obtain ⟨s', h1, h2⟩ := fillInsert_move (off := off) (v := y) hcp h.data rfl hcv hels hx h0 ho (not_eq_of_alloc h.vcell hdv) hc
    rw [h1]
    exact h2
  · intro s2 O' L' hfr hi
    have e1 : s2.mem p = some cl := by rw [hfr p cl h.cell, poke_ne (by intro y hy; cases hy; exact hvp.symm)]; exact h.cell
    have e2 : s2.mem v = some _ := (hfr v cv h.vcell).trans upd_self
    exact deleteInner_openV hi e1 h.data h.els e2 h.vdata (by simp) (by intro x hx; rw [List.eq_of_mem_replicate hx]; rfl) h.vrc hcl

/-- an inner node that is not shared, with some of its children (`X`), while the values are shared -/
structure OpenedR (E : Env (Dat w) T) (k : Toks E.gc) (m : Mem (Dat w) T) (O : List Nat) (L : List (Ref (Val w T))) (p : Nat) (nm dm : BitVec w) (xs : List T)
    (cl : Cell (Dat w) T) (vo : Option Nat) (cs : List Nat) (Lv X : List (Ref (Val w T))) : Prop where
  cell : m p = some cl
  data : cl.data = .inner ⟨nm, dm, vo, cs⟩
  els : cl.els = []
  xlen : xs.length = popcount dm
  clen : cs.length = popcount nm
  vsome : vo.isSome = !xs.isEmpty
  vptr : Lv.map Ref.ptr = vo.toList
  vval : ∀ x ∈ Lv, x.val = .vals xs
  inv : Inv (sys E k) m (p :: O) (Lv ++ (X ++ L))

theorem OpenedR.value {m : Mem (Dat w) T} (h : OpenedR E k m O L p nm dm xs cl vo cs Lv X) {v : Nat} (hv : vo = some v) : ∃ cv, m v = some cv ∧ cv.data = .vals ∧ cv.els = xs.map .live := by
  have hp := h.vptr
  subst hv
  cases Lv with
  | nil => cases hp
  | cons r Lv =>
    simp only [Option.toList_some, List.map_cons, List.cons.injEq] at hp
    obtain ⟨c, vs, hc, _, hok, _⟩ := h.inv.look (r := r) (by simp)
    rw [h.vval r List.mem_cons_self] at hok
    obtain ⟨h1, h2, _⟩ := okD_vals hok
    rw [hp.1] at hc
    exact ⟨c, hc, h1, h2⟩

theorem OpenedR.del (h : OpenedR E k s.mem O L p nm dm xs cl vo cs Lv X) {s2 : St (Dat w) T} {O' : List Nat} {L' : List (Ref (Val w T))} (hfr : s2.mem p = s.mem p)
    (hi : Inv (sys E k) s2.mem (p :: O') (Lv ++ L')) : Out (deleteInner E p s2) (fun s' _ => Gone E k O' L' s2.mem s'.mem) (fun _ => False) :=
  deleteInner_ref hi (hfr.trans h.cell) h.data h.els h.vptr h.vval h.xlen h.clen

/-- copying all but one of the values into a new node (values shared, or none left) -/
theorem moveRemove_ref (hE : E.Fresh) (h : OpenedR E k s.mem O L p nm dm xs cl vo cs Lv X) (ho : off < popcount dm) (hm : ∀ v cv, vo = some v → s.mem v = some cv → mutable E e cv = false)
    (hdm : popcount dm' + 1 = popcount dm)
    {kids : Nat → HM w T Unit} {Lc' : List (Ref (Val w T))}
    (hkids : ∀ dst s1 vo', s1.mem dst = some ⟨1, 0, [], .inner ⟨nm', dm', vo', List.replicate n 0⟩⟩ →
      kids dst s1 = .ok { s1 with mem := upd s1.mem dst (some ⟨1, 0, [], .inner ⟨nm', dm', vo', Lc'.map Ref.ptr⟩⟩) } ())
    (hp : Lc'.Perm X) (hX : ∀ x ∈ X, x.tok = 0 ∨ x.tok = ht) (hN : Lc'.map Ref.val = Ns'.map Val.node) (h2 : Ns'.length = popcount nm') :
    Out (((buildInner E n (popcount dm - 1) nm' dm' fun dv => (valuesPtr p).bind fun sv => (canMutate E e sv).bind fun mv => fillRemove mv p off (popcount dm) dv).bind fun dst =>
        (kids dst).bind fun _ => (deleteInner E p).bind fun _ => M.ret dst) s)
      (fun s' dst => BuiltV E k s'.mem O L dst nm' dm' (xs.take off ++ xs.drop (off + 1)) Ns' 0 0 ht ∧ Kept (sys E k) O L s.mem s'.mem) (fun s' => s'.mem = s.mem) := by
  have hlen : (xs.take off ++ xs.drop (off + 1)).length = popcount dm - 1 := by
    have := length_erase (xs := xs) (n := off) (by rw [h.xlen]; exact ho)
    rw [h.xlen] at this; omega
  have hv : ∃ v, vo = some v := by
    apply Option.isSome_iff_exists.mp
    rw [h.vsome]
    cases xs with
    | nil => have := h.xlen; simp at this; omega
    | cons => rfl
  obtain ⟨v, rfl⟩ := hv
  obtain ⟨cv, hcv, _, hels⟩ := h.value rfl
  refine move_out (O1 := [p]) (L1 := Lv) (Y := none) hE (h.inv.permL (swap3 _ _ _)) hlen (by omega) (by intro y hy; cases hy) ?_ hkids hp hX hN h2 ?_
  · intro _ q dv s1 hq hdv hi hc hfr
    have hcp : s1.mem p = some cl := by rw [hfr p (not_eq_of_alloc h.cell hdv) (not_eq_of_alloc h.cell hq)]; exact h.cell
    have hcv1 : s1.mem v = some cv := by rw [hfr v (not_eq_of_alloc hcv hdv) (not_eq_of_alloc hcv hq)]; exact hcv
    rw [bind_ok (valuesPtr_eq hcp h.data rfl), bind_ok (canMutate_eq hcv1), hm v cv rfl hcv]
    exact fillRemove_out hcp h.data rfl hcv1 hels h.xlen ho (not_eq_of_alloc hcv hdv) hc
  · intro s2 O' L' hfr hi
    exact h.del (hfr p cl h.cell) hi

/-- copying the values and a new one into a new node (values shared, or none) -/
theorem moveInsert_ref (hE : E.Fresh) (h : OpenedR E k s.mem O L p nm dm xs cl vo cs Lv X) (y : T) (ho : off ≤ popcount dm)
    (hm : ∀ v cv, vo = some v → s.mem v = some cv → mutable E e cv = false) (hdm : popcount dm' = popcount dm + 1)
    {kids : Nat → HM w T Unit} {Lc' : List (Ref (Val w T))}
    (hkids : ∀ dst s1 vo', s1.mem dst = some ⟨1, 0, [], .inner ⟨nm', dm', vo', List.replicate n 0⟩⟩ →
      kids dst s1 = .ok { s1 with mem := upd s1.mem dst (some ⟨1, 0, [], .inner ⟨nm', dm', vo', Lc'.map Ref.ptr⟩⟩) } ())
    (hp : Lc'.Perm X) (hX : ∀ x ∈ X, x.tok = 0 ∨ x.tok = ht) (hN : Lc'.map Ref.val = Ns'.map Val.node) (h2 : Ns'.length = popcount nm') :
    Out (((buildInner E n (popcount dm + 1) nm' dm' fun dv => (mutateValues E e p (popcount dm)).bind fun mv => fillInsert mv p off (popcount dm) y dv).bind fun dst =>
        (kids dst).bind fun _ => (deleteInner E p).bind fun _ => M.ret dst) s)
      (fun s' dst => BuiltV E k s'.mem O L dst nm' dm' (xs.take off ++ y :: xs.drop off) Ns' 0 0 ht ∧ Kept (sys E k) O L s.mem s'.mem) (fun s' => s'.mem = s.mem) := by
  have hlen : (xs.take off ++ y :: xs.drop off).length = popcount dm + 1 := by
    rw [length_insert (by rw [h.xlen]; exact ho), h.xlen]
  refine move_out (O1 := [p]) (L1 := Lv) (Y := none) hE (h.inv.permL (swap3 _ _ _)) hlen (by omega) (by intro y hy; cases hy) ?_ hkids hp hX hN h2 ?_
  · intro _ q dv s1 hq hdv hi hc hfr
    have hcp : s1.mem p = some cl := by rw [hfr p (not_eq_of_alloc h.cell hdv) (not_eq_of_alloc h.cell hq)]; exact h.cell
    have hmv : mutateValues E e p (popcount dm) s1 = .ok s1 false := by
      unfold mutateValues
      by_cases h0 : popcount dm = 0
      · rw [if_pos h0]; rfl
      · rw [if_neg h0]
        obtain ⟨v, rfl⟩ : ∃ v, vo = some v := by
          apply Option.isSome_iff_exists.mp
          rw [h.vsome]
          cases xs with
          | nil => exact absurd h.xlen.symm h0
          | cons => rfl
        obtain ⟨cv, hcv, _, _⟩ := h.value rfl
        have hcv1 : s1.mem v = some cv := by rw [hfr v (not_eq_of_alloc hcv hdv) (not_eq_of_alloc hcv hq)]; exact hcv
        rw [bind_ok (valuesPtr_eq hcp h.data rfl), canMutate_eq hcv1, hm v cv rfl hcv]
    rw [bind_ok hmv]
    refine fillInsert_out hcp h.data h.vsome ?_ h.xlen ho hc
    intro v hv
    obtain ⟨cv, hcv, _, hels⟩ := h.value hv
    exact ⟨cv, by rw [hfr v (not_eq_of_alloc hcv hdv) (not_eq_of_alloc hcv hq)]; exact hcv, hels, not_eq_of_alloc hcv hdv⟩
  · intro s2 O' L' hfr hi
    exact h.del (hfr p cl h.cell) hi

/-- A node that is not shared, with its array of values (`els`) if that is not shared either; its children are among `X`. -/
def Unsh (E : Env (Dat w) T) (k : Toks E.gc) (e : Nat) (m : Mem (Dat w) T) (O : List Nat) (L : List (Ref (Val w T))) (p : Nat) (nm dm : BitVec w) (xs : List T)
    (cl : Cell (Dat w) T) (vo : Option Nat) (cs : List Nat) (X : List (Ref (Val w T))) (els : List (Slot T)) : Prop :=
  xs.length = popcount dm ∧ cs.length = popcount nm ∧
    ((∃ v cv, vo = some v ∧ OpenedV E k e m O L p nm dm cl v cs X cv ∧ cv.els = els ∧ mutable E e cv = true ∧ popcount dm ≠ 0) ∨
      (∃ Lv, OpenedR E k m O L p nm dm xs cl vo cs Lv X ∧ ∀ v cv, vo = some v → m v = some cv → mutable E e cv = false))

variable {m : Mem (Dat w) T} {els : List (Slot T)}

theorem Unsh.cell (h : Unsh E k e m O L p nm dm xs cl vo cs X els) : m p = some cl ∧ cl.data = .inner ⟨nm, dm, vo, cs⟩ := by
  obtain ⟨_, _, ⟨v, cv, rfl, h, _⟩ | ⟨Lv, h, _⟩⟩ := h
  · exact ⟨h.cell, h.data⟩
  · exact ⟨h.cell, h.data⟩

theorem Unsh.perm (h : Unsh E k e m O L p nm dm xs cl vo cs X els) {X' L' : List (Ref (Val w T))} (hp : (X ++ L).Perm (X' ++ L')) :
    Unsh E k e m O L' p nm dm xs cl vo cs X' els := by
  refine ⟨h.1, h.2.1, ?_⟩
  rcases h.2.2 with ⟨v, cv, h0, h, h1⟩ | ⟨Lv, h, h1⟩
  · exact .inl ⟨v, cv, h0, { h with inv := h.inv.permL hp }, h1⟩
  · exact .inr ⟨Lv, { h with inv := h.inv.permL (hp.append_left Lv) }, h1⟩

theorem Opened.ref (h : Opened E k e m O L p nm dm xs Ns cl vo cs Lv Lc) : OpenedR E k m O L p nm dm xs cl vo cs Lv Lc := by
  refine ⟨h.cell, h.data, h.els, h.xlen, h.clen, h.vsome, h.parts.vptr, ?_, h.inv⟩
  intro x hx
  have := List.mem_map_of_mem (f := Ref.val) hx
  rw [h.parts.vval] at this
  obtain ⟨_, _, h⟩ := List.mem_map.mp this
  exact h.symm

theorem Opened.unsh (he : E.gc = true → k.live e) (h : Opened E k e m O L p nm dm xs Ns cl vo cs Lv Lc) : Unsh E k e m O L p nm dm xs cl vo cs Lc (xs.map .live) := by
  refine ⟨h.xlen, h.clen, ?_⟩
  cases vo with
  | none => exact .inr ⟨Lv, h.ref, fun v cv hv => by cases hv⟩
  | some v =>
    obtain ⟨cv, hc, _, _⟩ := h.ref.value rfl
    cases hm : mutable E e cv with
    | true =>
      obtain ⟨h1, h2⟩ := h.openV he hc hm
      refine .inl ⟨v, cv, rfl, h1, h2, hm, ?_⟩
      rw [← h.xlen]
      have := h.vsome
      cases xs with
      | nil => cases this
      | cons => simp
    | false =>
      refine .inr ⟨Lv, h.ref, ?_⟩
      intro v' cv' hv hc'
      cases hv
      rw [hc] at hc'; cases hc'; exact hm

theorem moveRemove_out (hE : E.Fresh) {z : Slot T} (hz : z.there = true)
    (h : Unsh E k e s.mem O L p nm dm xs cl vo cs X ((xs.take off).map .live ++ z :: (xs.drop (off + 1)).map .live)) (ho : off < popcount dm) (hdm : popcount dm' + 1 = popcount dm)
    {kids : Nat → HM w T Unit} {Lc' : List (Ref (Val w T))}
    (hkids : ∀ dst s1 vo', s1.mem dst = some ⟨1, 0, [], .inner ⟨nm', dm', vo', List.replicate n 0⟩⟩ →
      kids dst s1 = .ok { s1 with mem := upd s1.mem dst (some ⟨1, 0, [], .inner ⟨nm', dm', vo', Lc'.map Ref.ptr⟩⟩) } ())
    (hp : Lc'.Perm X) (hX : ∀ x ∈ X, x.tok = 0 ∨ x.tok = ht) (hN : Lc'.map Ref.val = Ns'.map Val.node) (h2 : Ns'.length = popcount nm') :
    Out (((buildInner E n (popcount dm - 1) nm' dm' fun dv => (valuesPtr p).bind fun sv => (canMutate E e sv).bind fun mv => fillRemove mv p off (popcount dm) dv).bind fun dst =>
        (kids dst).bind fun _ => (deleteInner E p).bind fun _ => M.ret dst) s)
      (fun s' dst => BuiltV E k s'.mem O L dst nm' dm' (xs.take off ++ xs.drop (off + 1)) Ns' 0 0 ht ∧ Kept (sys E k) O L s.mem s'.mem) (fun s' => s'.mem = s.mem) := by
  obtain ⟨hx, hcl, ⟨v, cv, rfl, h, hels, hm, _⟩ | ⟨Lv, h, hm⟩⟩ := h
  · exact moveRemove_openV hE hz h hels hx ho hm hcl hdm hkids hp hX hN h2
  · exact moveRemove_ref hE h ho hm hdm hkids hp hX hN h2

theorem moveInsert_out (hE : E.Fresh) (h : Unsh E k e s.mem O L p nm dm xs cl vo cs X (xs.map .live)) (y : T) (ho : off ≤ popcount dm) (hdm : popcount dm' = popcount dm + 1)
    {kids : Nat → HM w T Unit} {Lc' : List (Ref (Val w T))}
    (hkids : ∀ dst s1 vo', s1.mem dst = some ⟨1, 0, [], .inner ⟨nm', dm', vo', List.replicate n 0⟩⟩ →
      kids dst s1 = .ok { s1 with mem := upd s1.mem dst (some ⟨1, 0, [], .inner ⟨nm', dm', vo', Lc'.map Ref.ptr⟩⟩) } ())
    (hp : Lc'.Perm X) (hX : ∀ x ∈ X, x.tok = 0 ∨ x.tok = ht) (hN : Lc'.map Ref.val = Ns'.map Val.node) (h2 : Ns'.length = popcount nm') :
    Out (((buildInner E n (popcount dm + 1) nm' dm' fun dv => (mutateValues E e p (popcount dm)).bind fun mv => fillInsert mv p off (popcount dm) y dv).bind fun dst =>
        (kids dst).bind fun _ => (deleteInner E p).bind fun _ => M.ret dst) s)
      (fun s' dst => BuiltV E k s'.mem O L dst nm' dm' (xs.take off ++ y :: xs.drop off) Ns' 0 0 ht ∧ Kept (sys E k) O L s.mem s'.mem) (fun s' => s'.mem = s.mem) := by
  obtain ⟨hx, hcl, ⟨v, cv, rfl, h, hels, hm, h0⟩ | ⟨Lv, h, hm⟩⟩ := h
  · exact moveInsert_openV hE h y hels hx h0 ho hm hcl hdm hkids hp hX hN h2
  · exact moveInsert_ref hE h y ho hm hdm hkids hp hX hN h2

theorem split_live {xs : List T} (ho : off < xs.length) : ∃ z : Slot T, z.there = true ∧ xs.map .live = (xs.take off).map .live ++ z :: (xs.drop (off + 1)).map .live := by
  refine ⟨.live xs[off], rfl, ?_⟩
  conv => lhs; rw [← List.take_append_drop off xs, List.drop_eq_getElem_cons ho]
  rw [List.map_append, List.map_cons]

theorem kids_all {vo' : Option Nat} {s1 : St (Dat w) T} (hcl : Lc.length = popcount nm) (hc : s1.mem dst = some ⟨1, 0, [], .inner ⟨nm', dm', vo', List.replicate (popcount nm) 0⟩⟩) :
    ((liftO (slice (Lc.map Ref.ptr) 0 (popcount nm))).bind fun ys => writeKids dst 0 ys) s1 =
      .ok { s1 with mem := upd s1.mem dst (some ⟨1, 0, [], .inner ⟨nm', dm', vo', Lc.map Ref.ptr⟩⟩) } () := by
  rw [bind_ok (liftO_eq (slice_all (by simp [hcl]))), writeKids_eq hc rfl (by simp [hcl])]
  simp [hcl]

theorem bind_assoc' {α β γ : Type} (x : HM w T α) (f : α → HM w T β) (g : β → HM w T γ) : (x.bind f).bind g = x.bind fun a => (f a).bind g := by
  funext s
  simp only [M.bind]
  cases x s <;> rfl

/-- node.hpp 832-889 -/
theorem moveInnerRemoveValue_out (hE : E.Fresh) (he : E.gc = true → k.live e) (h : Opened E k e s.mem O L p nm dm xs Ns cl vo cs Lv Lc) (hi : i < w) (hd : dm.getLsbD i = true) :
    Out (moveInnerRemoveValue E e p (bitOf w i) (cnt dm i) s)
      (fun s' dst => BuiltV E k s'.mem O L dst nm (dm &&& ~~~ bitOf w i) (xs.take (cnt dm i) ++ xs.drop (cnt dm i + 1)) Ns 0 0 cl.tok ∧ Kept (sys E k) O L s.mem s'.mem)
      (fun s' => s'.mem = s.mem) := by
  unfold moveInnerRemoveValue
  rw [bind_ok (getI_eq h.cell h.data)]
  simp only
  have ho := cnt_lt_popcount hd
  obtain ⟨z, hz, hl⟩ := split_live (xs := xs) (off := cnt dm i) (by rw [h.xlen]; exact ho)
  have hu := h.unsh he
  rw [hl] at hu
  have hlc : Lc.length = popcount nm := by rw [← List.length_map (f := Ref.ptr), h.parts.cptr, h.clen]
  have := moveRemove_out (kids := fun dst => (liftO (slice (Lc.map Ref.ptr) 0 (popcount nm))).bind fun ys => writeKids dst 0 ys) (Lc' := Lc) (nm' := nm) (ht := cl.tok)
    hE hz hu ho (popcount_andNot hi hd) (fun dst s1 vo' hc => kids_all hlc hc) (.refl _) (fun x hx => .inr (h.toks x (List.mem_append_right _ hx))) h.parts.cval h.nlen
  simp only [bind_assoc', h.parts.cptr] at this
  exact this

/-- node.hpp 931-985 -/
theorem moveInnerInsertValue_out (hE : E.Fresh) (he : E.gc = true → k.live e) (h : Opened E k e s.mem O L p nm dm xs Ns cl vo cs Lv Lc) (hi : i < w) (hd : dm.getLsbD i = false) (y : T) :
    Out (moveInnerInsertValue E e p (bitOf w i) y s)
      (fun s' dst => BuiltV E k s'.mem O L dst nm (dm ||| bitOf w i) (xs.take (cnt dm i) ++ y :: xs.drop (cnt dm i)) Ns 0 0 cl.tok ∧ Kept (sys E k) O L s.mem s'.mem)
      (fun s' => s'.mem = s.mem) := by
  unfold moveInnerInsertValue
  rw [bind_ok (getI_eq h.cell h.data)]
  simp only
  rw [rank_eq_cnt dm hi]
  have hlc : Lc.length = popcount nm := by rw [← List.length_map (f := Ref.ptr), h.parts.cptr, h.clen]
  have := moveInsert_out (kids := fun dst => (liftO (slice (Lc.map Ref.ptr) 0 (popcount nm))).bind fun ys => writeKids dst 0 ys) (Lc' := Lc) (nm' := nm) (ht := cl.tok)
    hE (h.unsh he) y (cnt_le_popcount (bm := dm) (Nat.le_of_lt hi)) (popcount_or hi hd) (fun dst s1 vo' hc => kids_all hlc hc) (.refl _)
    (fun x hx => .inr (h.toks x (List.mem_append_right _ hx))) h.parts.cval h.nlen
  simp only [bind_assoc', h.parts.cptr] at this
  exact this

/-- node.hpp 626-682; the value at the offset may already have been moved away -/
theorem moveInnerReplaceMerged_out (hE : E.Fresh) {z : Slot T} (hz : z.there = true) {r : Ref (Val w T)} {N : Node w T} (hrv : r.val = .node N)
    (h : Unsh E k e s.mem O L p nm dm xs cl vo cs (r :: Lc) ((xs.take (cnt dm i)).map .live ++ z :: (xs.drop (cnt dm i + 1)).map .live)) (hcp : Lc.map Ref.ptr = cs)
    (hcv : Lc.map Ref.val = Ns.map Val.node) (hr : r.tok = 0 ∨ r.tok = ht) (htk : ∀ x ∈ Lc, x.tok = 0 ∨ x.tok = ht) (hi : i < w) (hd : dm.getLsbD i = true) (hn : nm.getLsbD i = false) :
    Out (moveInnerReplaceMerged E e p (bitOf w i) (cnt dm i) r.ptr s)
      (fun s' dst => BuiltV E k s'.mem O L dst (nm ||| bitOf w i) (dm &&& ~~~ bitOf w i) (xs.take (cnt dm i) ++ xs.drop (cnt dm i + 1))
        (Ns.take (cnt nm i) ++ N :: Ns.drop (cnt nm i)) 0 0 ht ∧ Kept (sys E k) O L s.mem s'.mem)
      (fun s' => s'.mem = s.mem) := by
  unfold moveInnerReplaceMerged
  rw [bind_ok (getI_eq h.cell.1 h.cell.2)]
  simp only
  rw [rank_eq_cnt nm hi]
  have hcl := h.2.1
  have hno := cnt_le_popcount (bm := nm) (Nat.le_of_lt hi)
  have hnl : Ns.length = popcount nm := by
    rw [← hcl, ← hcp, List.length_map, ← List.length_map (f := Ref.val), hcv, List.length_map]
  refine moveRemove_out (Lc' := Lc.take (cnt nm i) ++ ([r] ++ Lc.drop (cnt nm i))) hE hz h (cnt_lt_popcount hd) (popcount_andNot hi hd) ?_ ?_ ?_ ?_ ?_
  · intro dst s1 vo' hc
    rw [kidsMerged_eq (ii := ⟨nm, dm, vo, cs⟩) hc rfl hcl (by simp) hno]
    simp [← hcp]
  · exact (take_drop_perm _ _ _).trans List.perm_append_comm
  · intro x hx
    rcases List.mem_cons.mp hx with rfl | hx
    · exact hr
    · exact htk x hx
  · simp only [List.map_append, List.map_take, List.map_drop, List.map_cons, List.map_nil, hcv, hrv]; simp
  · have := popcount_or hi hn
    rw [length_insert (by rw [hnl]; exact hno), hnl]; omega

/-- node.hpp 734-794; the node at the offset is not used -/
theorem moveInnerReplaceInline_out (hE : E.Fresh) {A B : List (Ref (Val w T))} (h : Unsh E k e s.mem O L p nm dm xs cl vo cs (A ++ B) (xs.map .live))
    (hA : A.map Ref.ptr = cs.take (cnt nm i)) (hB : B.map Ref.ptr = cs.drop (cnt nm i + 1)) (hN : (A ++ B).map Ref.val = Ns'.map Val.node)
    (htk : ∀ x ∈ A ++ B, x.tok = 0 ∨ x.tok = ht) (hi : i < w) (hd : dm.getLsbD i = false) (hn : nm.getLsbD i = true) (y : T) :
    Out (moveInnerReplaceInline E e p (bitOf w i) (cnt nm i) y s)
      (fun s' dst => BuiltV E k s'.mem O L dst (nm &&& ~~~ bitOf w i) (dm ||| bitOf w i) (xs.take (cnt dm i) ++ y :: xs.drop (cnt dm i)) Ns' 0 0 ht ∧ Kept (sys E k) O L s.mem s'.mem)
      (fun s' => s'.mem = s.mem) := by
  unfold moveInnerReplaceInline
  rw [bind_ok (getI_eq h.cell.1 h.cell.2)]
  simp only
  rw [rank_eq_cnt dm hi]
  have hcl := h.2.1
  have hno := cnt_lt_popcount hn
  refine moveInsert_out (Lc' := A ++ B) hE h y (cnt_le_popcount (bm := dm) (Nat.le_of_lt hi)) (popcount_or hi hd) ?_ (.refl _) htk hN ?_
  · intro dst s1 vo' hc
    rw [kidsInline_eq (ii := ⟨nm, dm, vo, cs⟩) hc rfl hcl (by simp) hno]
    simp [hA, hB]
  · have h1 : Ns'.length = A.length + B.length := by
      rw [← List.length_map (f := Val.node), ← hN, List.length_map, List.length_append]
    have h2 : A.length = cnt nm i := by rw [← List.length_map (f := Ref.ptr), hA, List.length_take]; omega
    have h3 : B.length = popcount nm - (cnt nm i + 1) := by rw [← List.length_map (f := Ref.ptr), hB, List.length_drop]; omega
    have := popcount_andNot hi hn
    omega

/-! ### collision nodes -/

theorem open_coll {t : Nat} {b : Bool} (he : E.gc = true → k.live e) (h : Inv (sys E k) s.mem O (⟨p, .node (.collision xs), t, b⟩ :: L)) (hc : s.mem p = some cl)
    (hm : mutable E e cl = true) : cl.data = .coll xs.length ∧ cl.els = xs.map .live ∧ Inv (sys E k) s.mem (p :: O) L := by
  obtain ⟨Lo, ho, hok, htk, hi⟩ := h.open_ hc (by rcases mutable_open he hm with h | h; exacts [.inl h, .inr (.inl h)])
  obtain ⟨h1, h2, h3⟩ := okD_coll hok
  have : Lo = [] := List.map_eq_nil_iff.mp h3
  subst this
  exact ⟨h1, h2, hi⟩

theorem close_coll {t : Nat} (h : Inv (sys E k) m (p :: O) L) (hc : m p = some cl) (hd : cl.data = .coll xs.length) (hels : cl.els = xs.map .live) (hm : mutable E e cl = true)
    (ht : E.gc = true → t = e) : Inv (sys E k) m O (⟨p, .node (.collision xs), t, true⟩ :: L) := by
  refine Inv.close (Lo := []) h hc (mutable_cases hm).2 ?_ ?_ ?_ (by intro r hr; cases hr)
  · show outsD cl.data = _
    rw [hd]; rfl
  · show okD cl.data cl.els _ _
    rw [hd]; exact ⟨rfl, xs, rfl, hels, rfl⟩
  · intro hl
    rw [(mutable_cases hm).1 (live_gc hl), ht (live_gc hl)]

theorem coll_moved (h : Inv (sys E k) s.mem (p :: O) L) (hc : s.mem p = some cl) (hd : cl.data = .coll n) {s2 : St (Dat w) T} (hdst : s.mem dst = none) {els : List (Slot T)} {ys : List T}
    (hn : els.length = n) (hth : ∀ x ∈ els, x.there = true)
    (h2 : s2.mem = upd (upd s.mem p (some { cl with els := els })) dst (some ⟨1, 0, ys.map .live, .coll ys.length⟩)) :
    Out (((deleteCollision p).bind fun _ => M.ret dst) s2) (fun s' r => BuiltC E k s'.mem O L r ys 0 ∧ Kept (sys E k) O L s.mem s'.mem) (fun s' => s'.mem = s.mem) := by
  have hpd : p ≠ dst := not_eq_of_alloc hc hdst
  have hpO : p ∉ O := (List.nodup_cons.mp h.open_nodup).1
  have hi1 := h.write List.mem_cons_self { cl with els := els }
  have hn1 : upd s.mem p (some { cl with els := els }) dst = none := by rw [upd_ne hpd.symm]; exact hdst
  have hi2 : Inv (sys E k) s2.mem (p :: dst :: O) L := by
    rw [h2]; exact (hi1.alloc hn1 _).perm (.swap _ _ _) (.refl _)
  refine out_bind (out_mono (deleteCollision_open hi2 (c := { cl with els := els }) (by rw [h2, upd_ne hpd, upd_self]) hd hn hth) (fun _ _ h => h) (fun _ h => h.elim)) ?_
  intro s3 _ hg
  refine ⟨⟨?_, hg.1⟩, ?_⟩
  · rw [hg.2.2 dst List.mem_cons_self, h2, upd_self]
  · refine (Kept.write h (some { cl with els := els })).trans ?_
    refine Kept.trans (m' := s2.mem) ?_ (hg.2.mono (fun _ h => h) fun _ h => List.mem_cons_of_mem _ h)
    rw [h2]
    exact Kept.upd hi1 (.inr hn1) (fun hx => hi1.fresh_notin hn1 (List.mem_cons_of_mem _ hx)) _

/-- node.hpp 414-437 -/
theorem moveCollisionInsert_out (hE : E.Fresh) (h : Inv (sys E k) s.mem (p :: O) L) (hc : s.mem p = some cl) (hd : cl.data = .coll xs.length) (hels : cl.els = xs.map .live) (y : T) :
    Out (moveCollisionInsert E p y s) (fun s' r => BuiltC E k s'.mem O L r (y :: xs) 0 ∧ Kept (sys E k) O L s.mem s'.mem) (fun s' => s'.mem = s.mem) := by
  unfold moveCollisionInsert makeCollisionN
  rw [bind_ok (collCount_eq hc hd)]
  refine out_bind (alloc_out hE h.finite) ?_
  rintro s1 dst ⟨hdst, _, h1, _⟩
  have hpd : p ≠ dst := not_eq_of_alloc hc hdst
  rw [bind_ok (construct_eq (s := s1) (by rw [h1]; exact upd_self) rfl)]
  rw [bind_ok (uninitMove_eq hpd xs 0 xs.length 1 [] [] [.live y] [] _ cl _ (by show upd s1.mem _ _ _ = _; rw [upd_ne hpd, h1, upd_ne hpd]; exact hc) upd_self rfl rfl rfl (by simp [hels]) (by simp [List.replicate_succ]))]
  refine coll_moved h hc hd hdst (els := List.replicate xs.length .moved) (by simp) (by intro x hx; rw [List.eq_of_mem_replicate hx]; rfl) ?_
  show upd (upd (upd s1.mem dst _) p _) dst _ = _
  rw [h1, upd_upd, upd_comm hpd, upd_upd, upd_comm hpd.symm]
  simp

/-- node.hpp 464-488 -/
theorem moveCollisionRemove_out (hE : E.Fresh) (h : Inv (sys E k) s.mem (p :: O) L) (hc : s.mem p = some cl) (hd : cl.data = .coll xs.length) (hels : cl.els = xs.map .live) {pos : Nat}
    (hpos : pos < xs.length) :
    Out (moveCollisionRemove E p pos s) (fun s' r => BuiltC E k s'.mem O L r (xs.take pos ++ xs.drop (pos + 1)) 0 ∧ Kept (sys E k) O L s.mem s'.mem) (fun s' => s'.mem = s.mem) := by
  unfold moveCollisionRemove makeCollisionN
  rw [bind_ok (collCount_eq hc hd)]
  refine out_bind (alloc_out hE h.finite) ?_
  rintro s1 dst ⟨hdst, _, h1, _⟩
  have hpd : p ≠ dst := not_eq_of_alloc hc hdst
  obtain ⟨z, hz, hl⟩ := split_live (xs := xs) (off := pos) hpos
  have hlen : (xs.take pos).length = pos := by rw [List.length_take]; omega
  have hlen2 : (xs.drop (pos + 1)).length = xs.length - (pos + 1) := by rw [List.length_drop]
  rw [bind_ok (uninitMove_eq hpd (xs.take pos) 0 pos 0 [] (z :: (xs.drop (pos + 1)).map .live) [] (List.replicate (xs.length - (pos + 1)) .raw) s1 cl _
    (by rw [h1, upd_ne hpd]; exact hc) (by rw [h1]; exact upd_self) hlen.symm rfl rfl (by rw [hels, hl]; simp) (by rw [List.nil_append]; exact replicate_split (by omega) _))]
  rw [bind_ok (uninitMove_eq hpd (xs.drop (pos + 1)) (pos + 1) (xs.length - (pos + 1)) pos (List.replicate pos .moved ++ [z]) [] ((xs.take pos).map .live) [] _
    { cl with els := [] ++ List.replicate pos .moved ++ (z :: (xs.drop (pos + 1)).map .live) } ⟨1, 0, [] ++ (xs.take pos).map .live ++ List.replicate (xs.length - (pos + 1)) .raw, .coll (xs.length - 1)⟩
    (by show upd (upd _ _ _) _ _ _ = _; rw [upd_ne hpd, upd_self]) upd_self hlen2.symm (by simp) (by rw [List.length_map, hlen]) (by simp) (by simp))]
  refine coll_moved h hc hd hdst (els := List.replicate pos .moved ++ z :: List.replicate (xs.length - (pos + 1)) .moved) (by simp; omega) (moved_there hz _ _) ?_
  show upd (upd (upd (upd s1.mem p _) dst _) p _) dst _ = _
  rw [upd_comm hpd.symm, upd_upd, upd_upd, h1, upd_comm hpd, upd_upd, upd_comm hpd.symm]
  have : (xs.take pos ++ xs.drop (pos + 1)).length = xs.length - 1 := by rw [List.length_append, hlen, hlen2]; omega
  rw [this]
  simp

/-! ### changing an element -/

/-- `*x = …`; when the new element throws, the old one may be lost (`moved`) -/
theorem replace_out {K : Type} (a : Act K T) (hc : s.mem p = some cl) {x : T} (hx : cl.els[i]? = some (.live x)) :
    Out (a.replace (w := w) p i s) (fun s' _ => s'.mem = upd s.mem p (some { cl with els := cl.els.set i (.live (a.g (some x))) }))
      (fun s' => s'.mem = s.mem ∨ s'.mem = upd s.mem p (some { cl with els := cl.els.set i .moved })) := by
  have hlt : i < cl.els.length := (List.getElem?_eq_some_iff.mp hx).1
  unfold Act.replace
  cases ha : a.up with
  | false =>
    simp only [Bool.false_eq_true, if_false]
    rw [bind_ok (readEl_eq hc hx)]
    unfold Act.make
    rw [ha]
    simp only [Bool.false_eq_true, if_false]
    rw [bind_ok (show M.ret (a.g (some x)) s = .ok s (a.g (some x)) from rfl), assignEl_eq hc (.inl hx)]
    rfl
  | true =>
    simp only [if_true]
    rw [bind_ok (moveEl_eq hc hx)]
    unfold Act.make
    rw [ha]
    simp only [if_true]
    rw [bind_assoc']
    refine out_bind (out_mono (tick_out' (Q := fun m => m = upd s.mem p (some { cl with els := cl.els.set i .moved })) rfl) (fun _ _ h => h) fun _ h => .inr h) ?_
    rintro s1 _ ⟨h1, _⟩
    rw [bind_ok (show M.ret (a.g (some x)) s1 = .ok s1 (a.g (some x)) from rfl)]
    rw [assignEl_eq (w := x) (c := { cl with els := cl.els.set i .moved }) (by rw [h1]; exact upd_self) (.inr (by show (cl.els.set i .moved)[i]? = _; rw [List.getElem?_set_self hlt]))]
    show upd s1.mem p _ = _
    rw [h1, upd_upd]
    simp

theorem OpenedV.close {t : Nat} (h : OpenedV E k e m O L p nm dm cl v cs Lc cv) (hels : cv.els = xs.map .live) (hm : mutable E e cl = true) (hmv : mutable E e cv = true)
    (hx : xs.length = popcount dm) (h0 : xs ≠ []) (hcl : cs.length = popcount nm) (hcp : Lc.map Ref.ptr = cs) (hcv : Lc.map Ref.val = Ns.map Val.node)
    (htk : ∀ x ∈ Lc, x.tok = cl.tok) (ht : E.gc = true → t = e) : Inv (sys E k) m O (⟨p, .node (.inner nm dm xs Ns), t, true⟩ :: L) := by
  have hv : Inv (sys E k) m (p :: O) (⟨v, .vals xs, cl.tok, true⟩ :: (Lc ++ L)) := by
    refine Inv.close (Lo := []) h.inv h.vcell h.vrc ?_ ?_ ?_ (by intro r hr; cases hr)
    · show outsD cv.data = _
      rw [h.vdata]; rfl
    · show okD cv.data cv.els _ _
      rw [h.vdata, hels]; exact ⟨rfl, xs, rfl, rfl⟩
    · intro hl
      rw [h.vtok (live_gc hl), (mutable_cases hm).1 (live_gc hl)]
  have hnl : Ns.length = popcount nm := by
    rw [← hcl, ← hcp, List.length_map, ← List.length_map (f := Ref.val), hcv, List.length_map]
  refine Inv.close (Lo := (⟨v, .vals xs, cl.tok, true⟩ : Ref (Val w T)) :: Lc) hv h.cell (mutable_cases hm).2 ?_ ?_ ?_ ?_
  · show outsD cl.data = _
    rw [h.data, List.map_cons, hcp]; rfl
  · show okD cl.data cl.els _ _
    rw [h.data]
    refine ⟨h.els, xs, Ns, rfl, hx, hnl, hcl, ?_, ?_⟩
    · cases xs with
      | nil => exact absurd rfl h0
      | cons => rfl
    · rw [List.map_cons, hcv]; rfl
  · intro hl
    rw [(mutable_cases hm).1 (live_gc hl), ht (live_gc hl)]
  · intro r hr c' _ _
    rcases List.mem_cons.mp hr with rfl | hr
    · rfl
    · exact htk r hr

/-- node.hpp 364-388: afterwards the array of values is not shared -/
theorem ensureMutableValues_out (hE : E.Fresh) (he : E.gc = true → k.live e) (h : Opened E k e s.mem O L p nm dm xs Ns cl vo cs Lv Lc) (hm : mutable E e cl = true) (h0 : xs ≠ []) :
    Out (ensureMutableValues E e p s)
      (fun s' v => ∃ cl' cv, OpenedV E k e s'.mem O L p nm dm cl' v cs Lc cv ∧ cv.els = xs.map .live ∧ mutable E e cl' = true ∧ mutable E e cv = true ∧ cl'.tok = cl.tok ∧
        Kept (sys E k) O L s.mem s'.mem) (fun s' => s'.mem = s.mem) := by
  obtain ⟨v, rfl⟩ : ∃ v, vo = some v := by
    apply Option.isSome_iff_exists.mp
    rw [h.vsome]
    cases xs with
    | nil => exact absurd rfl h0
    | cons => rfl
  obtain ⟨cv, hcv, hvd, hels⟩ := h.ref.value rfl
  unfold ensureMutableValues
  rw [bind_ok (getI_eq h.cell h.data)]
  rw [bind_ok (liftO_eq rfl), bind_ok (canMutate_eq hcv)]
  by_cases hmv : mutable E e cv = true
  · rw [if_pos hmv]
    obtain ⟨ho, hels⟩ := h.openV he hcv hmv
    exact ⟨cl, cv, ho, hels, hm, hmv, rfl, .refl⟩
  · rw [if_neg hmv]
    simp only
    refine out_bind (alloc_out hE h.inv.finite) ?_
    rintro s1 nx ⟨hnx, _, h1, _⟩
    rw [bind_ok (setTok_eq (s := s1) (by rw [h1]; exact upd_self))]
    have hvn : v ≠ nx := not_eq_of_alloc hcv hnx
    have hpn : p ≠ nx := not_eq_of_alloc h.cell hnx
    have hvp : v ≠ p := by
      have hp := h.parts.vptr
      cases Lv with
      | nil => cases hp
      | cons r Lv =>
        simp only [Option.toList_some, List.map_cons, List.cons.injEq] at hp
        rw [← hp.1]
        exact h.inv.ref_ne_open (by simp) List.mem_cons_self
    rw [h1, upd_upd]
    refine out_bind (Q := fun s2 _ => s2.mem = upd s.mem nx (some ⟨1, if E.gc then e else 0, xs.map .live, .vals⟩)) ?_ ?_
    · refine out_guard (out_mono (uninitCopy_out (s := { s1 with mem := _ }) (cs := cv) (ys := xs) (pre := []) (post := []) hvn upd_self rfl (by show upd _ _ _ _ = _; rw [upd_ne hvn]; exact hcv) h.xlen.symm
        (by intro j _; rw [hels]; simp) (by simp)) ?_ (fun _ h => h.1)) ?_
      · rintro s2 _ ⟨h2, _⟩
        rw [h2, upd_upd]
        simp
      · intro s2 h2
        unfold deallocEls
        rw [dealloc_eq (room := room) (c := ⟨1, if E.gc then e else 0, List.replicate (popcount dm) .raw, Dat.vals⟩) (by rw [h2]; exact upd_self) rfl (k := 0) rfl]
        show upd s2.mem nx none = _
        rw [h2, upd_upd]; exact upd_same hnx
    · intro s2 _ h2
      have hcp : s2.mem p = some cl := by rw [h2, upd_ne hpn]; exact h.cell
      rw [bind_ok (setI_eq hcp h.data)]
      have hi2 : Inv (sys E k) s2.mem (nx :: p :: O) (Lv ++ (Lc ++ L)) := by rw [h2]; exact h.inv.alloc hnx _
      have hk2 : Kept (sys E k) (p :: O) (Lv ++ (Lc ++ L)) s.mem s2.mem := by
        rw [h2]; exact Kept.upd h.inv (.inr hnx) (h.inv.fresh_notin hnx) _
      have hi3 := hi2.write (a := p) (List.mem_cons_of_mem _ List.mem_cons_self) { cl with data := .inner ⟨nm, dm, some nx, cs⟩ }
      have hk3 : Kept (sys E k) O (Lc ++ L) s2.mem (upd s2.mem p (some { cl with data := .inner ⟨nm, dm, some nx, cs⟩ })) :=
        (Kept.upd (O := O) hi2 (.inl (List.mem_cons_of_mem _ List.mem_cons_self)) (by
          have := hi2.open_nodup
          simp only [List.nodup_cons, List.mem_cons] at this
          exact this.2.1) _).mono (fun x hx => List.mem_append_right _ hx) fun _ h => h
      have hp := h.parts.vptr
      have hpv := h.parts.vval
      cases Lv with
      | nil => cases hp
      | cons r Lv =>
        simp only [Option.toList_some, List.map_cons, List.cons.injEq, List.map_eq_nil_iff, List.map_nil, and_true] at hp hpv
        obtain ⟨hrp, rfl⟩ := hp
        have hrel := dec_ref (s := { s2 with mem := upd s2.mem p (some { cl with data := .inner ⟨nm, dm, some nx, cs⟩ }) }) (r := r) (f := deleteValues v (popcount dm)) (O := nx :: p :: O) (L := Lc ++ L) hi3 (by
          intro s1 c Lo hc1 ho hok hi
          rw [hpv.1] at hok
          obtain ⟨h1, h2, h3⟩ := okD_vals hok
          have : Lo = [] := List.map_eq_nil_iff.mp h3
          subst this
          rw [hrp] at hc1 hi
          exact deleteValues_open hi hc1 h1 (by rw [h2, List.length_map, h.xlen]) (by rw [h2]; exact live_there _))
        rw [hrp] at hrel
        rw [← bind_assoc']
        refine out_bind (out_mono hrel (fun _ _ h => h) fun _ h => h.elim) ?_
        intro s4 _ hg
        refine ⟨{ cl with data := .inner ⟨nm, dm, some nx, cs⟩ }, ⟨1, if E.gc then e else 0, xs.map .live, .vals⟩, ⟨?_, rfl, h.els, ?_, rfl, hg.1, ?_, fun _ => rfl⟩, rfl, ?_, ?_, rfl, ?_⟩
        · rw [hg.2.2 p (List.mem_cons_of_mem _ List.mem_cons_self)]; exact upd_self
        · rw [hg.2.2 nx List.mem_cons_self]
          show upd s2.mem p _ nx = _
          rw [upd_ne hpn.symm, h2, upd_self]
        · intro hgc; simp [hgc]
        · rw [← hm]; rfl
        · unfold mutable
          by_cases hgc : E.gc = true
          · rw [if_pos hgc]; simp [hgc]
          · rw [if_neg hgc]; rfl
        · exact ((hk2.mono (fun x hx => List.mem_append_right _ (List.mem_append_right _ hx)) fun _ h => List.mem_cons_of_mem _ h).trans
            (hk3.mono (fun x hx => List.mem_append_right _ hx) fun _ h => h)).trans
            (hg.2.mono (fun x hx => List.mem_append_right _ hx) fun _ h => List.mem_cons_of_mem _ (List.mem_cons_of_mem _ h))

end
end ChampHeap
