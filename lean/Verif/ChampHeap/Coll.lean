import Verif.ChampHeap.Copy

/-!
# Collision nodes, small nodes, and ownership
-/

namespace ChampHeap
open Mm Champ

variable {w : Nat} {T : Type} {E : Env (Dat w) T} {k : Toks E.gc} {O : List Nat} {L : List (Ref (Val w T))}

/-- A new collision node at `dst`, which may still be changed. -/
def BuiltC (E : Env (Dat w) T) (k : Toks E.gc) (m : Mem (Dat w) T) (O : List Nat) (L : List (Ref (Val w T))) (dst : Nat) (xs : List T) (ct : Nat) : Prop :=
  m dst = some ⟨1, ct, xs.map .live, .coll xs.length⟩ ∧ Inv (sys E k) m (dst :: O) L

theorem BuiltC.close {m : Mem (Dat w) T} {dst : Nat} {xs : List T} {ct t : Nat} (h : BuiltC E k m O L dst xs ct) (ht : k.live ct → ct = t) :
    Inv (sys E k) m O (⟨dst, .node (.collision xs), t, true⟩ :: L) := by
  refine Inv.close (Lo := []) (L := L) h.2 h.1 (fun _ => rfl) rfl ⟨rfl, xs, rfl, rfl, rfl⟩ ht ?_
  intro r hr; cases hr

section
variable {s : St (Dat w) T} {p dst : Nat} {nm dm : BitVec w} {xs : List T} {Ns : List (Node w T)} {e ct cv ht : Nat} {v : T}

/-- the token a node gets -/
def tokOf (E : Env (Dat w) T) (e ct : Nat) : Nat := if E.gc then e else ct

theorem owned_eq {c : Cell (Dat w) T} (h : s.mem p = some c) : owned E p e s = .ok { s with mem := upd s.mem p (some { c with tok := tokOf E e c.tok }) } p := by
  unfold owned
  rw [bind_ok (setTok_eq h)]; rfl

theorem Kept.write {m : Mem (Dat w) T} (h : Inv (sys E k) m (dst :: O) L) (c : Option (Cell (Dat w) T)) : Kept (sys E k) O L m (upd m dst c) :=
  Kept.upd h (.inl List.mem_cons_self) (List.nodup_cons.mp h.open_nodup).1 c

theorem Built.owned (h : Built E k s.mem O L dst nm dm xs Ns ct ht) :
    Out (owned E dst e s) (fun s' r => r = dst ∧ Built E k s'.mem O L dst nm dm xs Ns (tokOf E e ct) ht ∧ Kept (sys E k) O L s.mem s'.mem) (fun _ => False) := by
  obtain ⟨vo, cs, Lo, hc, hi, hp, hok, htk⟩ := h
  rw [owned_eq hc]
  refine ⟨rfl, ⟨vo, cs, Lo, upd_self, hi.write List.mem_cons_self _, hp, hok, htk⟩, ?_⟩
  exact (Kept.write hi _).mono (fun x hx => List.mem_append_right _ hx) (fun _ h => h)

theorem BuiltC.owned (h : BuiltC E k s.mem O L dst xs ct) :
    Out (owned E dst e s) (fun s' r => r = dst ∧ BuiltC E k s'.mem O L dst xs (tokOf E e ct) ∧ Kept (sys E k) O L s.mem s'.mem) (fun _ => False) := by
  rw [owned_eq h.1]
  exact ⟨rfl, ⟨upd_self, h.2.write List.mem_cons_self _⟩, Kept.write h.2 _⟩

theorem BuiltV.ownedValuesSafe (h : BuiltV E k s.mem O L dst nm dm xs Ns cv ct ht) :
    Out (ownedValuesSafe E dst e s) (fun s' r => r = dst ∧ BuiltV E k s'.mem O L dst nm dm xs Ns (tokOf E e cv) (tokOf E e ct) ht ∧ Kept (sys E k) O L s.mem s'.mem)
      (fun _ => False) := by
  obtain ⟨vo, Lc, hc, hi, hv, hvc, hvs, h1, h2, htk⟩ := h
  unfold ChampHeap.ownedValuesSafe
  rw [bind_ok (setTok_eq hc)]
  rw [bind_ok (getI_eq (s := { s with mem := _ }) upd_self rfl)]
  have hno : ∀ a ∈ vo.toList ++ [dst], a ∉ O := by
    have := hi.open_nodup
    rw [show vo.toList ++ dst :: O = (vo.toList ++ [dst]) ++ O by simp, List.nodup_append] at this
    exact fun a ha ho => this.2.2 a ha a ho rfl
  have hk1 : ∀ x, Kept (sys E k) O L s.mem (upd s.mem dst x) := fun x =>
    (Kept.upd hi (.inl (List.mem_append_right _ List.mem_cons_self)) (hno dst (by simp)) x).mono (fun x hx => List.mem_append_right _ hx) (fun _ h => h)
  cases vo with
  | none => exact ⟨rfl, ⟨none, Lc, upd_self, hi.write (List.mem_append_right _ List.mem_cons_self) _, hv, (by intro v hv; cases hv), hvs, h1, h2, htk⟩, hk1 _⟩
  | some v =>
    have hne : v ≠ dst := by
      have := hi.open_nodup
      rw [Option.toList_some, List.singleton_append] at this
      have := (List.nodup_cons.mp this).1
      rw [List.mem_cons, not_or] at this
      exact this.1
    have hi1 := hi.write (a := dst) (List.mem_append_right _ List.mem_cons_self) ⟨1, tokOf E e ct, [], .inner ⟨nm, dm, some v, Lc.map Ref.ptr⟩⟩
    simp only
    rw [bind_ok (setTok_eq (s := { s with mem := _ }) (p := v) (c := ⟨1, cv, xs.map .live, Dat.vals⟩) (by
      show upd s.mem dst _ v = _
      rw [upd_ne hne]; exact hvc v rfl))]
    refine ⟨rfl, ⟨some v, Lc, ?_, ?_, hv, ?_, hvs, h1, h2, htk⟩, ?_⟩
    · show upd (upd _ _ _) v _ dst = _
      rw [upd_ne hne.symm, upd_self]; rfl
    · exact hi1.write List.mem_cons_self _
    · intro v' hv'
      cases hv'
      exact upd_self
    · refine (hk1 (some ⟨1, tokOf E e ct, [], .inner ⟨nm, dm, some v, Lc.map Ref.ptr⟩⟩)).trans ?_
      exact (Kept.upd hi1 (.inl List.mem_cons_self) (hno v (by simp)) _).mono (fun x hx => List.mem_append_right _ hx) (fun _ h => h)

theorem BuiltV.ownedValues (h : BuiltV E k s.mem O L dst nm dm xs Ns cv ct ht) (hx : xs ≠ []) :
    Out (ownedValues E dst e s) (fun s' r => r = dst ∧ BuiltV E k s'.mem O L dst nm dm xs Ns (tokOf E e cv) (tokOf E e ct) ht ∧ Kept (sys E k) O L s.mem s'.mem)
      (fun _ => False) := by
  have hs := h.ownedValuesSafe (e := e)
  obtain ⟨vo, Lc, hc, hi, hv, hvc, hvs, h1, h2, htk⟩ := h
  have : ChampHeap.ownedValues E dst e s = ChampHeap.ownedValuesSafe E dst e s := by
    unfold ChampHeap.ownedValues ChampHeap.ownedValuesSafe
    rw [bind_ok (setTok_eq hc), bind_ok (setTok_eq hc)]
    have : ∃ v, vo = some v := by
      cases xs with
      | nil => exact absurd rfl hx
      | cons => exact Option.isSome_iff_exists.mp hvs
    obtain ⟨v, rfl⟩ := this
    rw [bind_ok (valuesPtr_eq (s := { s with mem := _ }) upd_self rfl rfl), bind_ok (getI_eq (s := { s with mem := _ }) upd_self rfl)]
  rw [this]
  exact hs

/-! ### Collision nodes -/

theorem live_there (xs : List T) : ∀ x ∈ xs.map Slot.live, x.there = true := by
  intro x hx
  obtain ⟨y, _, rfl⟩ := List.mem_map.mp hx
  rfl

theorem makeCollision_out (hE : E.Fresh) (h : Inv (sys E k) s.mem O L) (v1 v2 : T) :
    Out (makeCollision E v1 v2 s) (fun s' dst => BuiltC E k s'.mem O L dst [v1, v2] 0 ∧ Kept (sys E k) O L s.mem s'.mem) (fun s' => s'.mem = s.mem) := by
  unfold makeCollision makeCollisionN
  refine out_bind (alloc_out hE h.finite) ?_
  rintro s1 dst ⟨hd, _, h1, _⟩
  rw [bind_ok (construct_eq (by rw [h1]; exact upd_self) rfl)]
  rw [bind_ok (construct_eq (s := { s1 with mem := _ }) upd_self rfl)]
  refine ⟨⟨upd_self, ?_⟩, ?_⟩
  · show Inv _ (upd (upd s1.mem dst _) dst _) _ _
    rw [h1, upd_upd, upd_upd]
    exact h.alloc hd _
  · show Kept _ _ _ _ (upd (upd s1.mem dst _) dst _)
    rw [h1, upd_upd, upd_upd]
    exact Kept.upd h (.inr hd) (h.fresh_notin hd) _

/-- the end of the copying helpers -/
theorem coll_done (h : Inv (sys E k) s.mem O L) {s' : St (Dat w) T} {ys : List T} (hd : s.mem dst = none)
    (h' : s'.mem = upd s.mem dst (some ⟨1, 0, ys.map .live, .coll ys.length⟩)) : BuiltC E k s'.mem O L dst ys 0 ∧ Kept (sys E k) O L s.mem s'.mem := by
  refine ⟨⟨by rw [h', upd_self], ?_⟩, ?_⟩
  · rw [h']; exact h.alloc hd _
  · rw [h']; exact Kept.upd h (.inr hd) (h.fresh_notin hd) _

theorem copyCollisionInsert_out (hE : E.Fresh) (h : Inv (sys E k) s.mem O L) (ha : At (sys E k) s.mem L p (.node (.collision xs))) (v : T) :
    Out (copyCollisionInsert E p v s) (fun s' dst => BuiltC E k s'.mem O L dst (v :: xs) 0 ∧ Kept (sys E k) O L s.mem s'.mem) (fun s' => s'.mem = s.mem) := by
  obtain ⟨c, hc, hd, he, hp⟩ := at_coll h ha
  unfold copyCollisionInsert makeCollisionN
  rw [bind_ok (collCount_eq hc hd)]
  refine out_bind (alloc_out hE h.finite) ?_
  rintro s1 dst ⟨hdst, _, h1, _⟩
  have hne : p ≠ dst := not_eq_of_alloc hc hdst
  have hc1 : s1.mem dst = some ⟨1, 0, [] ++ .raw :: List.replicate xs.length .raw, .coll (xs.length + 1)⟩ := by
    rw [h1, upd_self, List.replicate_succ]; rfl
  refine out_bind (Q := fun s' _ => s'.mem = upd s.mem dst (some ⟨1, 0, (v :: xs).map .live, .coll (v :: xs).length⟩)) (out_guard (E' := fun s' => s'.mem = s1.mem) ?_ ?_) ?_
  · rw [bind_ok (construct_eq hc1 rfl)]
    simp only [List.nil_append, List.set_cons_zero]
    refine out_guard (E' := fun s' => s'.mem = upd s1.mem dst (some ⟨1, 0, .live v :: List.replicate xs.length .raw, .coll (xs.length + 1)⟩))
      (out_mono (uninitCopy_out hne (s := { s1 with mem := upd s1.mem dst (some ⟨1, 0, .live v :: List.replicate xs.length .raw, .coll (xs.length + 1)⟩) })
        (cs := c) upd_self (pre := [.live v]) (post := []) rfl (by
        show upd s1.mem dst _ p = _
        rw [upd_ne hne, h1, upd_ne hne]; exact hc) (ys := xs) rfl ?_ (by simp)) ?_ (fun _ h => h.1)) ?_
    · intro j hj
      rw [he, Nat.zero_add, List.getElem?_map]
    · intro s2 _ h2
      rw [h2.1]
      show upd (upd s1.mem dst _) dst _ = _
      rw [h1, upd_upd, upd_upd]
      simp
    · intro s2 h2
      rw [destroy1_eq (x := .live v) (by rw [h2, upd_self]) rfl rfl]
      show upd s2.mem dst _ = _
      rw [h2, upd_upd]
      exact upd_same hc1
  · intro s2 h2
    unfold deallocEls
    rw [dealloc_eq (room := room) (p := dst) (n := xs.length + 1) (k := 0) (c := ⟨1, 0, List.replicate (xs.length + 1) .raw, .coll (xs.length + 1)⟩) (by rw [h2, h1, upd_self]) rfl rfl]
    show upd s2.mem dst none = s.mem
    rw [h2, h1, upd_upd, upd_same hdst]
  · intro s2 _ h2
    exact coll_done h hdst h2

theorem copyCollisionRemove_out (hE : E.Fresh) (h : Inv (sys E k) s.mem O L) (ha : At (sys E k) s.mem L p (.node (.collision xs))) {pos : Nat} (hpos : pos < xs.length) :
    Out (copyCollisionRemove E p pos s) (fun s' dst => BuiltC E k s'.mem O L dst (xs.take pos ++ xs.drop (pos + 1)) 0 ∧ Kept (sys E k) O L s.mem s'.mem)
      (fun s' => s'.mem = s.mem) := by
  obtain ⟨c, hc, hd, he, hp⟩ := at_coll h ha
  unfold copyCollisionRemove makeCollisionN
  rw [bind_ok (collCount_eq hc hd)]
  refine out_bind (alloc_out hE h.finite) ?_
  rintro s1 dst ⟨hdst, _, h1, _⟩
  have hne : p ≠ dst := not_eq_of_alloc hc hdst
  have hl : pos = ((xs.take pos).map Slot.live).length := by rw [List.length_map, List.length_take]; omega
  have hlen : (xs.take pos ++ xs.drop (pos + 1)).length = xs.length - 1 := by
    have := length_erase (xs := xs) hpos; omega
  have hc1 : s1.mem dst = some ⟨1, 0, List.replicate (xs.length - 1) .raw, .coll (xs.length - 1)⟩ := by rw [h1, upd_self]
  refine out_bind (Q := fun s' _ => s'.mem = upd s.mem dst (some ⟨1, 0, (xs.take pos ++ xs.drop (pos + 1)).map .live, .coll (xs.take pos ++ xs.drop (pos + 1)).length⟩))
    (out_guard (E' := fun s' => s'.mem = s1.mem) ?_ ?_) ?_
  · refine out_bind (out_mono (uninitCopy_out hne hc1 (pre := []) (post := List.replicate (xs.length - (pos + 1)) .raw) rfl (cs := c) (by
      rw [h1, upd_ne hne]; exact hc) (ys := xs.take pos) (by rw [List.length_take]; omega) ?_ ?_) (fun _ _ h => h.1) (fun _ h => h.1)) ?_
    · intro j hj
      rw [he, drop_get (n := pos) (by omega) hj, List.drop_zero]
    · rw [List.nil_append]; exact replicate_split (by omega) _
    · intro s2 _ h2
      have hc2 : s2.mem dst = some ⟨1, 0, [] ++ (xs.take pos).map .live ++ List.replicate (xs.length - (pos + 1)) .raw, .coll (xs.length - 1)⟩ := by rw [h2, upd_self]
      refine out_guard (E' := fun s' => s'.mem = s2.mem) (out_mono (uninitCopy_out hne hc2 (pre := (xs.take pos).map .live) (post := []) hl (cs := c) (by
        rw [h2, upd_ne hne, h1, upd_ne hne]; exact hc) (ys := xs.drop (pos + 1)) (by rw [List.length_drop]) ?_ (by simp)) ?_ (fun _ h => h.1)) ?_
      · intro j hj
        rw [he, drop_get (n := xs.length - (pos + 1)) (by omega) hj, List.take_of_length_le (by rw [List.length_drop])]
      · intro s3 _ h3
        rw [h3.1, h2, h1, upd_upd, upd_upd, hlen]
        simp
      · intro s3 h3
        rw [destroyN_eq ((xs.take pos).map .live) [] (List.replicate (xs.length - (pos + 1)) .raw) 0 pos s3 _ (by rw [h3]; exact hc2) rfl rfl hl (live_there _)]
        show upd s3.mem dst _ = s1.mem
        rw [h3, h2, upd_upd]
        refine upd_same ?_
        have e : pos + (xs.length - (pos + 1)) = xs.length - 1 := by omega
        rw [hc1]
        simp only [List.nil_append]
        rw [← replicate_split e]
  · intro s2 h2
    unfold deallocEls
    rw [dealloc_eq (room := room) (p := dst) (n := xs.length - 1) (k := 0) (c := ⟨1, 0, List.replicate (xs.length - 1) .raw, .coll (xs.length - 1)⟩) (by rw [h2, hc1]) rfl rfl]
    show upd s2.mem dst none = s.mem
    rw [h2, h1, upd_upd, upd_same hdst]
  · intro s2 _ h2
    exact coll_done h hdst h2

/-- Correct only if no copy throws: see the definition. -/
theorem copyCollisionReplace_out (hE : E.Fresh) (hn : NoCopyFault s) (h : Inv (sys E k) s.mem O L) (ha : At (sys E k) s.mem L p (.node (.collision xs))) {pos : Nat} (hpos : pos < xs.length) (v : T) :
    Out (copyCollisionReplace E p pos v s) (fun s' dst => BuiltC E k s'.mem O L dst (v :: (xs.take pos ++ xs.drop (pos + 1))) 0 ∧ Kept (sys E k) O L s.mem s'.mem)
      (fun s' => s'.mem = s.mem) := by
  obtain ⟨c, hc, hd, he, hp⟩ := at_coll h ha
  unfold copyCollisionReplace makeCollisionN
  rw [bind_ok (collCount_eq hc hd)]
  refine out_bind (alloc_out hE h.finite) ?_
  rintro s1 dst ⟨hdst, _, h1, hn1⟩
  have hn1 := hn1 hn
  have hne : p ≠ dst := not_eq_of_alloc hc hdst
  have hl : pos = ((xs.take pos).map Slot.live).length := by rw [List.length_map, List.length_take]; omega
  have hlen : (xs.take pos ++ xs.drop (pos + 1)).length = xs.length - 1 := by
    have := length_erase (xs := xs) hpos; omega
  have hc1 : s1.mem dst = some ⟨1, 0, [] ++ .raw :: List.replicate (xs.length - 1) .raw, .coll xs.length⟩ := by
    rw [h1, upd_self, List.nil_append, ← List.replicate_succ, show xs.length - 1 + 1 = xs.length by omega]
  refine out_bind (Q := fun s' _ => s'.mem = upd s.mem dst (some ⟨1, 0, (v :: (xs.take pos ++ xs.drop (pos + 1))).map .live, .coll (v :: (xs.take pos ++ xs.drop (pos + 1))).length⟩))
    (out_guard (E' := fun _ => False) ?_ (fun _ h => h.elim)) ?_
  · rw [bind_ok (construct_eq hc1 rfl)]
    simp only [List.nil_append, List.set_cons_zero]
    refine out_guard (E' := fun _ => False) ?_ (fun _ h => h.elim)
    refine out_bind (out_mono (uninitCopy_out hne (s := { s1 with mem := upd s1.mem dst (some ⟨1, 0, .live v :: List.replicate (xs.length - 1) .raw, .coll xs.length⟩) }) upd_self
      (pre := [.live v]) (post := List.replicate (xs.length - (pos + 1)) .raw) rfl (cs := c) (by
      show upd s1.mem dst _ p = _
      rw [upd_ne hne, h1, upd_ne hne]; exact hc) (ys := xs.take pos) (by rw [List.length_take]; omega) ?_ ?_) (fun _ _ h => h) (fun _ h => h.2 hn1)) ?_
    · intro j hj
      rw [he, drop_get (n := pos) (by omega) hj, List.drop_zero]
    · simp only [List.singleton_append, List.cons_append, List.cons.injEq, true_and]
      exact replicate_split (by omega) _
    · rintro s2 _ ⟨h2, hn2⟩
      have hn2 := hn2 hn1
      refine out_guard (E' := fun _ => False) (out_mono (uninitCopy_out hne (s := s2) (cd := ⟨1, 0, [.live v] ++ (xs.take pos).map .live ++ List.replicate (xs.length - (pos + 1)) .raw, .coll xs.length⟩) (by
        rw [h2, upd_self]) (pre := [.live v] ++ (xs.take pos).map .live) (post := []) (by rw [List.length_append, ← hl, Nat.add_comm]; rfl) (cs := c) (by
        rw [h2, upd_ne hne]
        show upd s1.mem dst _ p = _
        rw [upd_ne hne, h1, upd_ne hne]; exact hc) (ys := xs.drop (pos + 1)) (by rw [List.length_drop]) ?_ (by simp)) ?_ (fun _ h => h.2 hn2)) (fun _ h => h.elim)
      · intro j hj
        rw [he, drop_get (n := xs.length - (pos + 1)) (by omega) hj, List.take_of_length_le (by rw [List.length_drop])]
      · intro s3 _ h3
        rw [h3.1, h2]
        show upd (upd (upd s1.mem dst _) dst _) dst _ = _
        rw [h1, upd_upd, upd_upd, upd_upd, List.length_cons, hlen, show xs.length - 1 + 1 = xs.length by omega]
        simp
  · intro s2 _ h2
    exact coll_done h hdst h2

/-! ### Small inner nodes -/

/-- a new node with values only -/
theorem new_done {m m' : Mem (Dat w) T} (h : Inv (sys E k) m O L) {v : Nat} (hp : m dst = none) (hv : m v = none) (hvp : v ≠ dst)
    (hm : m' = upd (upd m dst (some ⟨1, 0, [], .inner ⟨0#w, dm, some v, []⟩⟩)) v (some ⟨1, 0, xs.map .live, .vals⟩)) (hd : popcount dm = xs.length) (hx : xs ≠ []) :
    BuiltV E k m' O L dst 0#w dm xs [] 0 0 0 ∧ Kept (sys E k) O L m m' := by
  subst hm
  have hv1 : upd m dst (some ⟨1, 0, [], .inner ⟨0#w, dm, some v, []⟩⟩) v = none := by rw [upd_ne hvp]; exact hv
  have hi1 := h.alloc hp ⟨1, 0, [], .inner ⟨0#w, dm, some v, []⟩⟩
  refine ⟨⟨some v, [], ?_, hi1.alloc hv1 _, rfl, ?_, ?_, hd.symm, popcount_zero.symm, by intro x hx; cases hx⟩, ?_⟩
  · rw [upd_ne hvp.symm, upd_self]; rfl
  · intro v' hv'; cases hv'; exact upd_self
  · cases xs with
    | nil => exact absurd rfl hx
    | cons => rfl
  · exact (Kept.upd h (.inr hp) (h.fresh_notin hp) _).trans (Kept.upd hi1 (.inr hv1) (h.fresh_notin hv) _)

theorem makeInner1_out (hE : E.Fresh) (h : Inv (sys E k) s.mem O L) (bm : BitVec w) (hb : popcount bm = 1) (x : T) :
    Out (makeInner1 E bm x s) (fun s' dst => BuiltV E k s'.mem O L dst 0#w bm [x] [] 0 0 0 ∧ Kept (sys E k) O L s.mem s'.mem) (fun s' => s'.mem = s.mem) := by
  unfold makeInner1
  refine out_bind (makeInnerNv_out hE h.finite 0 1) ?_
  rintro s1 dst ⟨vo, hn⟩
  obtain ⟨hp, ⟨rfl, hn, _⟩ | ⟨v, rfl, hn, hv, hvp, h1⟩⟩ := hn
  · omega
  · have hc : s1.mem dst = some ⟨1, 0, [], .inner ⟨0#w, 0#w, some v, List.replicate 0 0⟩⟩ := by rw [h1, upd_ne hvp.symm, upd_self]
    rw [bind_ok (setI_eq hc rfl), bind_ok (valuesPtr_eq (s := { s1 with mem := _ }) upd_self rfl rfl)]
    rw [bind_ok (construct_eq (s := { s1 with mem := _ }) (p := v) (c := ⟨1, 0, List.replicate 1 .raw, .vals⟩) (by
      show upd s1.mem dst _ v = _
      rw [upd_ne hvp, h1, upd_self]) rfl)]
    refine new_done (xs := [x]) (dm := bm) h hp hv hvp ?_ hb (by simp)
    show upd (upd s1.mem dst _) v _ = _
    rw [h1, upd_comm hvp, upd_upd, upd_upd]
    rfl

theorem makeInner2_out (hE : E.Fresh) (h : Inv (sys E k) s.mem O L) {i1 i2 : Nat} (h1 : i1 < w) (h2 : i2 < w) (hne : i1 ≠ i2) (x1 x2 : T) :
    Out (makeInner2 E i1 x1 i2 x2 s) (fun s' dst => BuiltV E k s'.mem O L dst 0#w (bitOf w i1 ||| bitOf w i2) (if i1 < i2 then [x1, x2] else [x2, x1]) [] 0 0 0 ∧
      Kept (sys E k) O L s.mem s'.mem) (fun s' => s'.mem = s.mem) := by
  unfold makeInner2
  refine out_bind (makeInnerNv_out hE h.finite 0 2) ?_
  rintro s1 dst ⟨vo, hn⟩
  obtain ⟨hp, ⟨rfl, hn, _⟩ | ⟨v, rfl, hn, hv, hvp, hm1⟩⟩ := hn
  · omega
  · have hc : s1.mem dst = some ⟨1, 0, [], .inner ⟨0#w, 0#w, some v, List.replicate 0 0⟩⟩ := by rw [hm1, upd_ne hvp.symm, upd_self]
    rw [bind_ok (setI_eq hc rfl), bind_ok (valuesPtr_eq (s := { s1 with mem := _ }) upd_self rfl rfl)]
    rw [bind_ok (construct_eq (s := { s1 with mem := _ }) (p := v) (c := ⟨1, 0, List.replicate 2 .raw, .vals⟩) (by
      show upd s1.mem dst _ v = _
      rw [upd_ne hvp, hm1, upd_self]) rfl)]
    rw [bind_ok (construct_eq (s := { s1 with mem := _ }) upd_self rfl)]
    have hl : (if i1 < i2 then [x1, x2] else [x2, x1]).length = 2 := by split <;> rfl
    refine new_done (xs := if i1 < i2 then [x1, x2] else [x2, x1]) (dm := bitOf w i1 ||| bitOf w i2) h hp hv hvp ?_ (by rw [hl]; exact popcount_pair _ _ h1 h2 hne) (by split <;> simp)
    show upd (upd (upd s1.mem dst _) v _) v _ = _
    rw [hm1, upd_comm hvp, upd_upd, upd_upd, upd_upd]
    by_cases hlt : i1 < i2
    · simp only [if_pos hlt]; rfl
    · simp only [if_neg hlt]; rfl

theorem makeInnerChild_out (hE : E.Fresh) {r : Ref (Val w T)} {N : Node w T} (hrv : r.val = .node N) (h : Inv (sys E k) s.mem O (r :: L)) {i : Nat} (hi : i < w) :
    Out (makeInnerChild E i r.ptr s) (fun s' dst => Built E k s'.mem O L dst (bitOf w i) 0#w [] [N] 0 r.tok ∧ Kept (sys E k) O (r :: L) s.mem s'.mem)
      (fun s' => s'.mem = s.mem) := by
  unfold makeInnerChild makeInner
  refine out_bind (alloc_out hE h.finite) ?_
  rintro s1 dst ⟨hd, _, h1, _⟩
  rw [bind_ok (setI_eq (s := s1) (by rw [h1]; exact upd_self) rfl)]
  rw [bind_ok (writeKids_eq (s := { s1 with mem := _ }) upd_self rfl (by simp))]
  refine ⟨⟨none, [r.ptr], [r], upd_self, ?_, rfl, ⟨popcount_zero.symm, (popcount_bitOf i hi).symm, (popcount_bitOf i hi).symm, rfl, by simp [hrv]⟩, ?_⟩, ?_⟩
  · show Inv _ (upd (upd s1.mem dst _) dst _) _ _
    rw [h1, upd_upd, upd_upd]
    exact h.alloc hd _
  · intro x hx
    rw [List.mem_singleton] at hx
    exact .inr (by rw [hx])
  · show Kept _ _ _ _ (upd (upd s1.mem dst _) dst _)
    rw [h1, upd_upd, upd_upd]
    exact Kept.upd h (.inr hd) (h.fresh_notin hd) _

end
end ChampHeap
