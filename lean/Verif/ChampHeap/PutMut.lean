import Verif.ChampHeap.Like
import Verif.ChampHeap.Move

/-!
# The operations that change nodes in place: insert, set, update, update_if_exists

They give what the operations on values give, up to the order within collision nodes; they leave all nodes of others as they
were, and keep the counts exact.
-/

namespace ChampHeap
open Mm Champ

variable {K T : Type} {c : Cfg K T} {E : Env (Dat c.W) T} {u : Toks E.gc} {O : List Nat} {L : List (Ref (Val c.W T))} {s : St (Dat c.W) T} {p e : Nat} {m : Mem (Dat c.W) T}

theorem tokOf_cases {x : Nat} (h : E.gc = true → x = e) : tokOf E e 0 = 0 ∨ tokOf E e 0 = x := by
  unfold tokOf
  by_cases hg : E.gc = true
  · rw [if_pos hg, h hg]; exact .inr rfl
  · rw [if_neg hg]; exact .inl rfl

theorem tokOf_gc (hg : E.gc = true) : tokOf E e 0 = e := by unfold tokOf; rw [if_pos hg]

section
variable {dst t ht : Nat} {nm dm : BitVec c.W} {xs : List T} {Ns : List c.N}

theorem BuiltV.done (h : BuiltV E u m O L dst nm dm xs Ns (tokOf E e 0) (tokOf E e 0) ht) (hh : E.gc = true → ht = e) (ht' : E.gc = true → t = e) :
    Inv (sys E u) m O (⟨dst, .node (.inner nm dm xs Ns), t, true⟩ :: L) :=
  h.close (tokOf_cases hh) (fun hl => by rw [tokOf_gc (live_gc hl), ht' (live_gc hl)]) (fun hl => by rw [tokOf_gc (live_gc hl), hh (live_gc hl)])

theorem Built.done (h : Built E u m O L dst nm dm xs Ns (tokOf E e 0) ht) (hh : E.gc = true → ht = e) (ht' : E.gc = true → t = e) :
    Inv (sys E u) m O (⟨dst, .node (.inner nm dm xs Ns), t, true⟩ :: L) :=
  h.close (fun hl => by rw [tokOf_gc (live_gc hl), ht' (live_gc hl)]) (fun hl => by rw [tokOf_gc (live_gc hl), hh (live_gc hl)])

theorem BuiltC.done (h : BuiltC E u m O L dst xs (tokOf E e 0)) (ht' : E.gc = true → t = e) :
    Inv (sys E u) m O (⟨dst, .node (.collision xs), t, true⟩ :: L) :=
  h.close fun hl => by rw [tokOf_gc (live_gc hl), ht' (live_gc hl)]

/-- a node that may not be changed has no owner -/
theorem at_of_shared {v : Val c.W T} {b : Bool} {cl : Cell (Dat c.W) T} (h : Inv (sys E u) m O (⟨p, v, t, b⟩ :: L)) (hc : m p = some cl) (hm : mutable E e cl = false) (ht : E.gc = true → t = e) :
    At (sys E u) m (⟨p, v, t, b⟩ :: L) p v := by
  refine h.at (r := ⟨p, v, t, b⟩) List.mem_cons_self ?_
  intro c' hc' hl
  obtain ⟨c'', _, hc'', _, _, h3, _⟩ := h.look (r := ⟨p, v, t, b⟩) List.mem_cons_self
  have hc'' : m p = some c'' := hc''
  have hc' : m p = some c' := hc'
  rw [hc] at hc' hc''
  cases hc'
  cases hc''
  have h3 := h3 hl
  have hg := live_gc hl
  unfold mutable at hm
  rw [if_pos hg] at hm
  simp only [beq_eq_false_iff_ne] at hm
  exact hm (h3.trans (ht hg))

variable {cl : Cell (Dat c.W) T} {vo : Option Nat} {cs : List Nat} {Lv Lc : List (Ref (Val c.W T))}

/-- the child at an index -/
theorem Opened.child (h : Opened E u e m O L p nm dm xs Ns cl vo cs Lv Lc) {j : Nat} {ch : c.N} (hch : Ns[j]? = some ch) :
    ∃ A x B, Lc = A ++ x :: B ∧ A.length = j ∧ x.val = .node ch ∧ cs[j]? = some x.ptr := by
  have hv := congrArg (fun l => l[j]?) h.parts.cval
  simp only [List.getElem?_map, hch, Option.map_some, Option.map_eq_some_iff] at hv
  obtain ⟨x, hx, hxv⟩ := hv
  have hlt := (List.getElem?_eq_some_iff.mp hx).1
  refine ⟨Lc.take j, x, Lc.drop (j + 1), ?_, by rw [List.length_take]; omega, hxv, ?_⟩
  · conv => lhs; rw [← List.take_append_drop j Lc, List.drop_eq_getElem_cons hlt]
    rw [(List.getElem?_eq_some_iff.mp hx).2]
  · rw [← h.parts.cptr, List.getElem?_map, hx]; rfl

theorem Opened.mem {m' : Mem (Dat c.W) T} {L' : List (Ref (Val c.W T))} (h : Opened E u e m O L p nm dm xs Ns cl vo cs Lv Lc) (hi : Inv (sys E u) m' (p :: O) (Lv ++ (Lc ++ L'))) (hc : m' p = m p) :
    Opened E u e m' O L' p nm dm xs Ns cl vo cs Lv Lc := { h with inv := hi, cell := hc.trans h.cell }

/-- with another child -/
theorem Opened.setChild {A B : List (Ref (Val c.W T))} {x y : Ref (Val c.W T)} (h : Opened E u e m O L p nm dm xs Ns cl vo cs Lv (A ++ x :: B)) {m' : Mem (Dat c.W) T} {L' : List (Ref (Val c.W T))} {N : c.N}
    (hi : Inv (sys E u) m' (p :: O) (Lv ++ ((A ++ y :: B) ++ L'))) (hy : y.val = .node N) (hyt : y.tok = cl.tok) :
    Opened E u e (upd m' p (some { cl with data := .inner ⟨nm, dm, vo, cs.set A.length y.ptr⟩ })) O L' p nm dm xs (Ns.set A.length N)
      { cl with data := .inner ⟨nm, dm, vo, cs.set A.length y.ptr⟩ } vo (cs.set A.length y.ptr) Lv (A ++ y :: B) where
  cell := upd_self
  data := rfl
  els := h.els
  xlen := h.xlen
  nlen := by rw [List.length_set]; exact h.nlen
  clen := by rw [List.length_set]; exact h.clen
  vsome := h.vsome
  parts := by
    refine ⟨h.parts.vptr, h.parts.vval, ?_, ?_⟩
    · rw [← h.parts.cptr]; simp
    · rw [List.map_set, ← h.parts.cval, ← hy]; simp
  inv := hi.write List.mem_cons_self _
  toks := by
    intro z hz
    simp only [List.mem_append, List.mem_cons] at hz
    rcases hz with hz | hz | rfl | hz
    · exact h.toks z (by simp [hz])
    · exact h.toks z (by simp [hz])
    · exact hyt
    · exact h.toks z (by simp [hz])
  ctok := h.ctok
  rc := h.rc

end

/-- The outcome of `doPutMut`, and what it should be.  If `mutated` the node itself is gone. -/
def PutM (E : Env (Dat c.W) T) (u : Toks E.gc) (O : List Nat) (L : List (Ref (Val c.W T))) (d : Nat) (x : Ref (Val c.W T)) (m m' : Mem (Dat c.W) T) :
    Option (Nat × Bool × Bool) → Option (Option (c.N × Bool)) → Prop
  | none, some none => m' = m
  | some (q, ad, mu), some (some (N, ad')) => ad = ad' ∧ ∃ N', Like d N N' ∧
      (mu = true → Inv (sys E u) m' O (⟨q, .node N', x.tok, true⟩ :: L) ∧ Kept (sys E u) O L m m') ∧
      (mu = false → Inv (sys E u) m' O (⟨q, .node N', x.tok, true⟩ :: x :: L) ∧ Kept (sys E u) O (x :: L) m m')
  | _, _ => False

theorem perm_child {α : Type} (V A B L : List α) (x : α) : (V ++ ((A ++ x :: B) ++ L)).Perm (x :: (V ++ ((A ++ B) ++ L))) := by
  have : (V ++ ((A ++ x :: B) ++ L)) = ((V ++ A) ++ x :: (B ++ L)) := by simp
  rw [this]
  refine List.perm_middle.trans ?_
  simp

theorem set_split {α : Type} {vs : List α} {pos : Nat} (v : α) (h : pos < vs.length) : (v :: (vs.take pos ++ vs.drop (pos + 1))).Perm (vs.set pos v) := by
  rw [List.set_eq_take_append_cons_drop, if_pos h]
  exact List.perm_middle.symm

theorem map_set_live (vs : List T) (i : Nat) (v : T) : (vs.map Slot.live).set i (.live v) = (vs.set i v).map .live := by
  rw [List.map_set]

theorem doPutMut_out (hE : E.Fresh) (he : E.gc = true → u.live e) (a : Act K T) : ∀ (d : Nat) (N : c.N) (p : Nat) (hash : BitVec 64) (shift : Nat) (O : List Nat) (L : List (Ref (Val c.W T))) (t : Nat) (b : Bool) (s : St (Dat c.W) T),
    Form d N → (E.gc = true → t = e) → Inv (sys E u) s.mem O (⟨p, .node N, t, b⟩ :: L) → (NoCopyFault s ∨ collHit c a.k d N hash shift = false) →
    Out (doPutMut c E e a d p hash shift s) (fun s' r => PutM E u O L d ⟨p, .node N, t, b⟩ s.mem s'.mem r (put c a.ex a.g a.k d N hash shift)) (fun _ => True)
  | 0, .inner .., _, _, _, _, _, _, _, _, h, _, _, _ => h.elim
  | _ + 1, .collision _, _, _, _, _, _, _, _, _, h, _, _, _ => h.elim
  | 0, .collision vs, p, hash, shift, O, L, t, b, s, hf, ht, h, hn => by
    obtain ⟨cl, _, hc, _, hok, _⟩ := h.look (r := ⟨p, .node (.collision vs), t, b⟩) List.mem_cons_self
    obtain ⟨hd, hels, _⟩ := okD_coll hok
    have hc : s.mem p = some cl := hc
    rw [doPutMut, put]
    rw [bind_ok (collCount_eq hc hd)]
    refine out_bind (out_mono (scan_all hc hels) (fun _ _ h => h) fun s' h' => trivial) ?_
    rintro s1 o ⟨h1, hn1, rfl⟩
    have hi1 : Inv (sys E u) s1.mem O (⟨p, .node (.collision vs), t, b⟩ :: L) := by rw [h1]; exact h
    have hc1 : s1.mem p = some cl := by rw [h1]; exact hc
    cases hx : vs.findIdx? (fun x => c.eqv (c.key x) a.k) with
    | some pos =>
      obtain ⟨x, hx1, hx2, hx3, _⟩ := findIdx?_split hx
      have hnf : NoCopyFault s := by
        rcases hn with hn | hn
        · exact hn
        · rw [collHit, List.any_eq_false] at hn
          exact absurd hx2 (hn x (List.mem_of_getElem? hx1))
      have hxe : cl.els[pos]? = some (.live x) := by rw [hels, List.getElem?_map, hx1]; rfl
      simp only [hx1, Option.bind_eq_bind, Option.bind_some, copyCollisionReplace_eq hx3]
      rw [bind_ok (canMutate_eq hc1)]
      by_cases hm : mutable E e cl = true
      · rw [if_pos hm]
        obtain ⟨_, _, ho⟩ := open_coll he hi1 hc1 hm
        refine out_bind (out_mono (replace_out a hc1 hxe) (fun _ _ h => h) fun _ _ => trivial) ?_
        intro s2 _ h2
        refine ⟨rfl, .collision (vs.set pos (a.g (some x))), set_split _ hx3, fun _ => ?_, (fun hf => by cases hf)⟩
        rw [h2]
        refine ⟨close_coll (cl := { cl with els := (vs.set pos (a.g (some x))).map .live }) (ho.write List.mem_cons_self _) ?_ ?_ rfl hm ht, ?_⟩
        · rw [hels, map_set_live]; exact upd_self
        · simp [hd]
        · rw [h1]; rw [h1] at ho; exact Kept.write ho _
      · rw [if_neg hm]
        have hm := Bool.eq_false_iff.mpr hm
        rw [bind_ok (readEl_eq hc1 hxe)]
        refine out_bind (out_mono (make_out a (some x)) (fun _ _ h => h) fun _ _ => trivial) ?_
        rintro s2 v ⟨h2, hn2, rfl⟩
        have h2 := h2.trans h1
        refine out_bind (out_mono (copyCollisionReplace_out hE (hn2 (hn1 hnf)) (by rw [h2]; exact h) (by rw [h2]; exact at_of_shared h hc hm ht) hx3 _) (fun _ _ h => h) fun _ _ => trivial) ?_
        rintro s3 q ⟨hb, hk⟩
        refine out_bind (out_mono (BuiltC.owned (e := e) hb) (fun _ _ h => h) fun _ h => h.elim) ?_
        rintro s4 q' ⟨rfl, hb, hk4⟩
        refine ⟨rfl, _, Like.refl trivial, (fun hf => by cases hf), fun _ => ⟨hb.done ht, ?_⟩⟩
        rw [← h2]; exact hk.trans hk4
    | none =>
      simp only
      split
      · exact h1
      · refine out_bind (out_mono (make_out a none) (fun _ _ h => h) fun _ _ => trivial) ?_
        rintro s2 v ⟨h2, hn2, rfl⟩
        have h2 := h2.trans h1
        rw [bind_ok (canMutate_eq (by rw [h2]; exact hc))]
        by_cases hm : mutable E e cl = true
        · obtain ⟨_, _, ho⟩ := open_coll he h hc hm
          rw [if_pos hm]
          refine out_bind (out_mono (moveCollisionInsert_out hE (by rw [h2]; exact ho) (by rw [h2]; exact hc) hd hels _) (fun _ _ h => h) fun _ _ => trivial) ?_
          rintro s3 q ⟨hb, hk⟩
          refine out_bind (out_mono (BuiltC.owned (e := e) hb) (fun _ _ h => h) fun _ h => h.elim) ?_
          rintro s4 q' ⟨rfl, hb, hk4⟩
          rw [hm]
          refine ⟨rfl, _, Like.refl trivial, fun _ => ⟨hb.done ht, ?_⟩, (fun hf => by cases hf)⟩
          rw [← h2]; exact hk.trans hk4
        · rw [if_neg hm]
          have hm := Bool.eq_false_iff.mpr hm
          refine out_bind (out_mono (copyCollisionInsert_out hE (by rw [h2]; exact h) (by rw [h2]; exact at_of_shared h hc hm ht) _) (fun _ _ h => h) fun _ _ => trivial) ?_
          rintro s3 q ⟨hb, hk⟩
          refine out_bind (out_mono (BuiltC.owned (e := e) hb) (fun _ _ h => h) fun _ h => h.elim) ?_
          rintro s4 q' ⟨rfl, hb, hk4⟩
          rw [hm]
          refine ⟨rfl, _, Like.refl trivial, (fun hf => by cases hf), fun _ => ⟨hb.done ht, ?_⟩⟩
          rw [← h2]; exact hk.trans hk4
  | d + 1, .inner nm dm vs cs, p, hash, shift, O, L, t, b, s, hf, ht, h, hn => by
    have hi := idx_lt c hash shift
    obtain ⟨cl, _, hc, _, hok, _⟩ := h.look (r := ⟨p, .node (.inner nm dm vs cs), t, b⟩) List.mem_cons_self
    obtain ⟨vo, cps, hd, hels, hin⟩ := okD_inner hok
    have hc : s.mem p = some cl := hc
    have hbit : ∀ {bm : BitVec c.W}, bm.getLsbD (c.idx hash shift) = false → ¬ bm &&& bitOf c.W (c.idx hash shift) ≠ 0#c.W := fun hb h => by
      rw [(and_bitOf_ne_zero hi).mp h] at hb; cases hb
    rw [doPutMut]
    rw [bind_ok (getI_eq hc hd)]
    simp only
    rw [rank_eq_cnt nm hi, rank_eq_cnt dm hi]
    by_cases hm : mutable E e cl = true
    · -- the node may be changed
      obtain ⟨vo', cps', Lv, Lc, ho⟩ := open_inner he h hc hm
      obtain ⟨rfl, rfl⟩ : vo = vo' ∧ cps = cps' := by
        have := hd.symm.trans ho.data
        simp only [Dat.inner.injEq, Inner.mk.injEq, true_and] at this
        exact this
      by_cases hnm : nm.getLsbD (c.idx hash shift) = true
      · rw [if_pos ((and_bitOf_ne_zero hi).mpr hnm)]
        obtain ⟨ch, hch, hfc, _⟩ := form_child hf hnm
        obtain ⟨A, x, B, rfl, hA, hxv, hxp⟩ := ho.child hch
        rw [put_child hf hnm hch, bind_ok (liftO_eq hxp), bind_ok (canMutate_eq hc), if_pos hm]
        obtain ⟨xp, xv, xt, xb⟩ := x
        simp only at hxv hxp
        subst hxv
        have hxt : xt = cl.tok := ho.toks ⟨xp, .node ch, xt, xb⟩ (by simp)
        subst hxt
        refine out_bind (doPutMut_out hE he a d ch xp hash (shift + c.B) (p :: O) (Lv ++ ((A ++ B) ++ L)) cl.tok xb s hfc ho.ctok (ho.inv.permL (perm_child _ _ _ _ _)) ?_) ?_
        · rcases hn with hn | hn
          · exact .inl hn
          · right
            rwa [collHit, if_pos hnm, hch] at hn
        · intro s1 r hp
          cases hpt : put c a.ex a.g a.k d ch hash (shift + c.B) with
          | none => rw [hpt] at hp; cases r <;> exact hp.elim
          | some o =>
            rw [hpt] at hp
            cases r with
            | none => cases o with
              | none => exact hp
              | some o => exact hp.elim
            | some r => cases o with
              | none => exact hp.elim
              | some o =>
                obtain ⟨q, ad, mu⟩ := r
                obtain ⟨N', ad'⟩ := o
                obtain ⟨rfl, N'', hlk, hmu, hmn⟩ := hp
                simp only
                cases mu with
                | true =>
                  obtain ⟨hi1, hk1⟩ := hmu rfl
                  have hc1 : s1.mem p = some cl := (hk1.2 p List.mem_cons_self).trans hc
                  rw [bind_ok (writeKids_eq hc1 hd (by simp only [List.length_singleton, ho.clen]; exact cnt_lt_popcount hnm))]
                  have hset := ho.setChild (y := ⟨q, .node N'', cl.tok, true⟩) (hi1.permL (perm_child _ _ _ _ _).symm) rfl rfl
                  rw [hA] at hset
                  have hcs : List.take (cnt nm (c.idx hash shift)) cps ++ [q] ++ List.drop (cnt nm (c.idx hash shift) + [q].length) cps = cps.set (cnt nm (c.idx hash shift)) q := by
                    rw [List.set_eq_take_append_cons_drop, if_pos (by rw [ho.clen]; exact cnt_lt_popcount hnm)]; simp
                  simp only [hcs]
                  refine ⟨rfl, _, like_set hf.shape hlk, fun _ => ⟨hset.close ht, ?_⟩, (fun hf => by cases hf)⟩
                  refine (hk1.mono (fun z hz => by simp [hz]) fun _ h => List.mem_cons_of_mem _ h).trans ?_
                  exact (Kept.write hi1 _).mono (fun z hz => by simp [hz]) fun _ h => h
                | false =>
                  obtain ⟨hi1, hk1⟩ := hmn rfl
                  have hc1 : s1.mem p = some cl := (hk1.2 p List.mem_cons_self).trans hc
                  rw [bind_ok (writeKids_eq hc1 hd (by simp only [List.length_singleton, ho.clen]; exact cnt_lt_popcount hnm))]
                  have hset := ho.setChild (y := ⟨q, .node N'', cl.tok, true⟩) (L' := ⟨xp, .node ch, cl.tok, xb⟩ :: L) (hi1.permL (by
                    refine .trans ?_ (perm_child _ _ _ _ _).symm
                    refine .cons _ ?_
                    simp only [← List.append_assoc]
                    exact List.perm_middle.symm)) rfl rfl
                  rw [hA] at hset
                  have hcs : List.take (cnt nm (c.idx hash shift)) cps ++ [q] ++ List.drop (cnt nm (c.idx hash shift) + [q].length) cps = cps.set (cnt nm (c.idx hash shift)) q := by
                    rw [List.set_eq_take_append_cons_drop, if_pos (by rw [ho.clen]; exact cnt_lt_popcount hnm)]; simp
                  simp only [hcs, Bool.false_eq_true, if_false]
                  refine out_bind (out_mono (release_out (s := { s1 with mem := _ }) (r := ⟨xp, .node ch, cl.tok, xb⟩) (O := p :: O) (L := Lv ++ ((A ++ ⟨q, .node N'', cl.tok, true⟩ :: B) ++ L)) rfl hfc.shape (hset.inv.permL (by
                    simp only [← List.append_assoc]
                    exact List.perm_middle))) (fun _ _ h => h) fun _ h => h.elim) ?_
                  intro s2 _ hg
                  refine ⟨rfl, _, like_set hf.shape hlk, fun _ => ⟨(hset.mem hg.1 (hg.2.2 p List.mem_cons_self)).close ht, ?_⟩, (fun hf => by cases hf)⟩
                  refine (hk1.mono (fun z hz => by simp [hz]) fun _ h => List.mem_cons_of_mem _ h).trans ?_
                  refine ((Kept.write hi1 (some { cl with data := .inner ⟨nm, dm, vo, cps.set (cnt nm (c.idx hash shift)) q⟩ })).mono (fun z hz => by simp [hz]) fun _ h => h).trans ?_
                  exact hg.2.mono (fun z hz => by simp [hz]) fun _ h => List.mem_cons_of_mem _ h
      · rw [if_neg (hbit (Bool.eq_false_iff.mpr hnm))]
        have hnm := Bool.eq_false_iff.mpr hnm
        by_cases hdm : dm.getLsbD (c.idx hash shift) = true
        · rw [if_pos ((and_bitOf_ne_zero hi).mpr hdm)]
          obtain ⟨x, hx⟩ := form_value hf hdm
          have hv0 : vs ≠ [] := by rintro rfl; cases hx
          obtain ⟨sv, rfl⟩ : ∃ v, vo = some v := by
            apply Option.isSome_iff_exists.mp
            rw [ho.vsome]
            cases vs with
            | nil => exact absurd rfl hv0
            | cons => rfl
          obtain ⟨cv, hcv, _, hvels⟩ := ho.ref.value rfl
          have hxe : cv.els[cnt dm (c.idx hash shift)]? = some (.live x) := by rw [hvels, List.getElem?_map, hx]; rfl
          rw [put_value hf hnm hdm hx, bind_ok (liftO_eq rfl), bind_ok (readEl_eq hcv hxe)]
          refine out_bind (out_mono (eqM_out x a.k) (fun _ _ h => h) fun _ _ => trivial) ?_
          rintro s1 b1 ⟨h1, hn1, rfl⟩
          split
          · rw [bind_ok (canMutate_eq (by rw [h1]; exact hc)), if_pos hm]
            refine out_bind (out_mono (ensureMutableValues_out hE he (s := s1) (by rw [h1]; exact ho) hm hv0) (fun _ _ h => h) fun _ _ => trivial) ?_
            rintro s2 v' ⟨cl', cv', ho', hels', hm', hmv', htk', hk2⟩
            refine out_bind (out_mono (replace_out (x := x) a ho'.vcell (by rw [hels', List.getElem?_map, hx]; rfl)) (fun _ _ h => h) fun _ _ => trivial) ?_
            intro s3 _ h3
            rw [hels', map_set_live] at h3
            refine ⟨rfl, _, Like.refl hf.shape, fun _ => ?_, (fun hf => by cases hf)⟩
            rw [h3]
            have hvp : v' ≠ p := by
              have := ho'.inv.open_nodup
              simp only [List.nodup_cons, List.mem_cons, not_or] at this
              exact this.1.1
            refine ⟨OpenedV.close (cv := { cv' with els := (vs.set (cnt dm (c.idx hash shift)) (a.g (some x))).map .live }) (v := v') (cl := cl') (Lc := Lc) (cs := cps)
              ⟨by rw [upd_ne hvp.symm]; exact ho'.cell, ho'.data, ho'.els, upd_self, ho'.vdata, ho'.inv.write List.mem_cons_self _, ho'.vtok, ho'.vrc⟩ rfl hm' hmv'
              (by rw [List.length_set]; exact ho.xlen) (by intro h0; have := congrArg List.length h0; rw [List.length_set] at this; exact hv0 (List.eq_nil_of_length_eq_zero this))
              ho.clen ho.parts.cptr ho.parts.cval (fun z hz => by rw [htk']; exact ho.toks z (List.mem_append_right _ hz)) ht, ?_⟩
            rw [← h1]
            refine hk2.trans ?_
            exact (Kept.upd (O := O) ho'.inv (.inl List.mem_cons_self) (by
              have := ho'.inv.open_nodup
              simp only [List.nodup_cons, List.mem_cons, not_or] at this
              exact this.1.2) _).mono (fun z hz => by simp [hz]) fun _ h => h
          · split
            · exact h1
            · rw [bind_ok (canMutate_eq (by rw [h1]; exact hc)), hm]
              simp only [if_true]
              rw [bind_ok (canMutate_eq (by rw [h1]; exact hcv))]
              refine out_bind (out_mono (hashM_out x) (fun _ _ h => h) fun _ _ => trivial) ?_
              rintro s2 h2' ⟨h2, _, rfl⟩
              have h2 := h2.trans h1
              refine out_bind (out_mono (make_out a none) (fun _ _ h => h) fun _ _ => trivial) ?_
              rintro s3 v ⟨h3, _, rfl⟩
              have h3 := h3.trans h2
              -- the old element
              refine out_bind (Q := fun s4 y => y = x ∧ ∃ O1 L1, Inv (sys E u) s4.mem (O1 ++ O) (L1 ++ L) ∧ Kept (sys E u) O L s.mem s4.mem ∧
                ∀ (m5 : Mem (Dat c.W) T) (r : Ref (Val c.W T)), Inv (sys E u) m5 (O1 ++ O) (r :: (L1 ++ L)) → Kept (sys E u) (O1 ++ O) (L1 ++ L) s4.mem m5 → ∃ z : Slot T, z.there = true ∧
                  Unsh E u e m5 O L p nm dm vs cl (some sv) cps (r :: Lc) ((vs.take (cnt dm (c.idx hash shift))).map .live ++ z :: (vs.drop (cnt dm (c.idx hash shift) + 1)).map .live)) ?_ ?_
              · by_cases hmv : mutable E e cv = true
                · rw [if_pos hmv, moveEl_eq (by rw [h3]; exact hcv) hxe]
                  obtain ⟨hov, _⟩ := ho.openV he hcv hmv
                  rw [h3]
                  refine ⟨rfl, [sv, p], Lc, hov.inv.write List.mem_cons_self _, (Kept.upd (O := O) hov.inv (.inl List.mem_cons_self) (by
                    have := hov.inv.open_nodup
                    simp only [List.nodup_cons, List.mem_cons, not_or] at this
                    exact this.1.2) _).mono (fun z hz => by simp [hz]) fun _ h => h, ?_⟩
                  intro m5 r hi5 hk5
                  have hvp : sv ≠ p := by
                    have := hov.inv.open_nodup
                    simp only [List.nodup_cons, List.mem_cons, not_or] at this
                    exact this.1.1
                  refine ⟨.moved, rfl, ho.xlen, ho.clen, .inl ⟨sv, { cv with els := cv.els.set (cnt dm (c.idx hash shift)) .moved }, rfl, ⟨?_, hd, hels, ?_, hov.vdata, ?_, hov.vtok, hov.vrc⟩, ?_, hmv, ?_⟩⟩
                  · rw [hk5.2 p (by simp)]
                    show upd s.mem sv _ p = _
                    rw [upd_ne hvp.symm]; exact hc
                  · rw [hk5.2 sv (by simp)]; exact upd_self
                  · exact hi5
                  · show cv.els.set _ _ = _
                    rw [hvels, List.set_eq_take_append_cons_drop, if_pos (by rw [List.length_map]; exact (List.getElem?_eq_some_iff.mp hx).1), List.map_take, List.map_drop]
                  · have := cnt_lt_popcount hdm; omega
                · rw [if_neg hmv]
                  refine out_mono (copyEl_out (s := s3) (by rw [h3]; exact hcv) hxe) ?_ (fun _ _ => trivial)
                  rintro s4 y ⟨hy, h4, _⟩
                  have h4 := h4.trans h3
                  refine ⟨hy, [p], Lv ++ Lc, by rw [h4, List.append_assoc]; exact ho.inv, .of_eq h4, ?_⟩
                  intro m5 r hi5 hk5
                  obtain ⟨z, hz, hl⟩ := split_live (xs := vs) (off := cnt dm (c.idx hash shift)) (List.getElem?_eq_some_iff.mp hx).1
                  refine ⟨z, hz, ?_⟩
                  rw [← hl]
                  have hu := (ho.mem (L' := r :: L) (hi5.permL (by
                    simp only [← List.append_assoc]
                    exact List.perm_middle.symm)) (by rw [hk5.2 p (by simp), h4])).unsh he
                  exact hu.perm List.perm_middle
              · rintro s4 y ⟨rfl, O1, L1, hi4, hk4, hun⟩
                refine out_bind (out_mono (makeMerged_out hE (some e) (a.g none) y hash (c.hash (c.key y)) d (shift + c.B) (O1 ++ O) (L1 ++ L) s4 hi4) (fun _ _ h => h) fun _ _ => trivial) ?_
                rintro s5 q ⟨hi5, hk5⟩
                obtain ⟨z, hz, hun⟩ := hun s5.mem _ hi5 hk5
                refine out_bind (Q := fun s' q' => BuiltV E u s'.mem O L q' (nm ||| bitOf c.W (c.idx hash shift)) (dm &&& ~~~ bitOf c.W (c.idx hash shift))
                  (vs.take (cnt dm (c.idx hash shift)) ++ vs.drop (cnt dm (c.idx hash shift) + 1))
                  (cs.take (cnt nm (c.idx hash shift)) ++ Champ.makeMerged c d (shift + c.B) (a.g none) hash y (c.hash (c.key y)) :: cs.drop (cnt nm (c.idx hash shift))) (tokOf E e 0) (tokOf E e 0) cl.tok ∧
                  Kept (sys E u) O L s.mem s'.mem) ?_ ?_
                · refine out_guard (E' := fun s' => s'.mem = s5.mem) ?_ ?_
                  · refine out_bind (moveInnerReplaceMerged_out hE hz (r := ⟨q, .node _, tokIf E (some e), true⟩) rfl hun ho.parts.cptr ho.parts.cval (tokOf_cases ho.ctok)
                      (fun z hz => .inr (ho.toks z (List.mem_append_right _ hz))) hi hdm hnm) ?_
                    rintro s6 q' ⟨hb, hk6⟩
                    refine out_mono (BuiltV.ownedValuesSafe (e := e) hb) ?_ (fun _ h => h.elim)
                    rintro s7 q'' ⟨rfl, hb, hk7⟩
                    exact ⟨hb, ((hk4.trans (hk5.mono (fun z hz => by simp [hz]) fun z hz => by simp [hz])).trans hk6).trans hk7⟩
                  · intro s' hs'
                    refine out_mono (deleteDeep_uniq (r := ⟨q, .node _, tokIf E (some e), true⟩) rfl rfl (shape_makeMerged _ _ _ _ d (shift + c.B)) (by rw [hs']; exact hi5)) (fun _ _ _ => trivial) (fun _ h => h)
                · rintro s6 q' ⟨hb, hk6⟩
                  refine ⟨rfl, _, Like.refl ?_, fun _ => ⟨hb.done ho.ctok ht, hk6⟩, (fun hf => by cases hf)⟩
                  exact mem_splice (fun z hz => (hf.2.2.2 z hz).1.shape) (shape_makeMerged _ _ _ _ _ _)
        · rw [if_neg (hbit (Bool.eq_false_iff.mpr hdm))]
          have hdm := Bool.eq_false_iff.mpr hdm
          rw [put_empty hf hnm hdm]
          split
          · exact rfl
          · rw [bind_ok (canMutate_eq hc), hm]
            simp only [if_true]
            refine out_bind (out_mono (make_out a none) (fun _ _ h => h) fun _ _ => trivial) ?_
            rintro s1 v ⟨h1, _, rfl⟩
            refine out_bind (out_mono (moveInnerInsertValue_out hE he (s := s1) (by rw [h1]; exact ho) hi hdm _) (fun _ _ h => h) fun _ _ => trivial) ?_
            rintro s2 q ⟨hb, hk⟩
            refine out_bind (out_mono (BuiltV.ownedValues (e := e) hb (by simp)) (fun _ _ h => h) fun _ h => h.elim) ?_
            rintro s3 q' ⟨rfl, hb, hk3⟩
            refine ⟨rfl, _, Like.refl (fun z hz => (hf.2.2.2 z hz).1.shape), fun _ => ⟨hb.done ho.ctok ht, ?_⟩, (fun hf => by cases hf)⟩
            rw [← h1]; exact hk.trans hk3
    · -- it may not
      have hm := Bool.eq_false_iff.mpr hm
      have ha := at_of_shared h hc hm ht
      obtain ⟨cl', vo', cps', Lc, hr⟩ := read h ha
      obtain rfl : cl = cl' := by have := hc.symm.trans hr.cell; exact Option.some.inj this
      obtain ⟨rfl, rfl⟩ : vo = vo' ∧ cps = cps' := by
        have := hd.symm.trans hr.data
        simp only [Dat.inner.injEq, Inner.mk.injEq, true_and] at this
        exact this
      by_cases hnm : nm.getLsbD (c.idx hash shift) = true
      · rw [if_pos ((and_bitOf_ne_zero hi).mpr hnm)]
        obtain ⟨ch, hch, hfc, _⟩ := form_child hf hnm
        obtain ⟨x, hx, hx1, hx2, hx3, _⟩ := hr.child hch
        rw [put_child hf hnm hch, bind_ok (liftO_eq hx1), bind_ok (canMutate_eq hc), hm]
        simp only [Bool.false_eq_true, if_false]
        refine out_bind (out_mono (doPut_out hE a d ch x.ptr hash (shift + c.B) s hfc h hx3 ?_) (fun _ _ h => h) fun _ _ => trivial) ?_
        · rcases hn with hn | hn
          · exact .inl hn
          · right
            rwa [collHit, if_pos hnm, hch] at hn
        · rintro s1 r ⟨hp, hk⟩
          cases hpt : put c a.ex a.g a.k d ch hash (shift + c.B) with
          | none => rw [hpt] at hp; cases r <;> exact hp.elim
          | some o =>
            rw [hpt] at hp
            cases r with
            | none => cases o with
              | none => exact hp
              | some o => exact hp.elim
            | some r => cases o with
              | none => exact hp.elim
              | some o =>
                obtain ⟨q, ad⟩ := r
                obtain ⟨N', ad'⟩ := o
                obtain ⟨rfl, hi1⟩ := hp
                simp only
                refine out_bind (Q := fun s' q' => Built E u s'.mem O (⟨p, .node (.inner nm dm vs cs), t, b⟩ :: L) q' nm dm vs (cs.set (cnt nm (c.idx hash shift)) N') (tokOf E e 0) e ∧
                  Kept (sys E u) O (⟨p, .node (.inner nm dm vs cs), t, b⟩ :: L) s.mem s'.mem) ?_ ?_
                · refine out_guard (E' := fun s' => s'.mem = s1.mem) ?_ ?_
                  · refine out_bind (copyInnerReplace_out hE (r := ⟨q, .node N', 0, true⟩) rfl hi1 ((ha.kept hk).mono fun _ h => List.mem_cons_of_mem _ h) (cnt_lt_popcount hnm)) ?_
                    rintro s2 q' ⟨hb, hk2⟩
                    refine out_mono (Built.owned (e := e) hb) ?_ (fun _ h => h.elim)
                    rintro s3 q'' ⟨rfl, hb, hk3⟩
                    exact ⟨hb.ht0, (hk.trans (Kept.tail hk2)).trans hk3⟩
                  · intro s' hs'
                    exact out_mono (deleteDeep_uniq (r := ⟨q, .node N', 0, true⟩) rfl rfl (put_shape hfc hpt) (by rw [hs']; exact hi1)) (fun _ _ _ => trivial) (fun _ h => h)
                · rintro s2 q' ⟨hb, hk2⟩
                  exact ⟨rfl, _, Like.refl (put_shape hf (by rw [put_child hf hnm hch, hpt]; rfl)), (fun hf => by cases hf), fun _ => ⟨hb.done (fun _ => rfl) ht, hk2⟩⟩
      · rw [if_neg (hbit (Bool.eq_false_iff.mpr hnm))]
        have hnm := Bool.eq_false_iff.mpr hnm
        by_cases hdm : dm.getLsbD (c.idx hash shift) = true
        · rw [if_pos ((and_bitOf_ne_zero hi).mpr hdm)]
          obtain ⟨x, hx⟩ := form_value hf hdm
          obtain ⟨sv, cv, rfl, hcv, _, hvels⟩ := hr.values (by have := cnt_lt_popcount hdm; omega)
          have hxe : cv.els[cnt dm (c.idx hash shift)]? = some (.live x) := by rw [hvels, List.getElem?_map, hx]; rfl
          rw [put_value hf hnm hdm hx, bind_ok (liftO_eq rfl), bind_ok (readEl_eq hcv hxe)]
          refine out_bind (out_mono (eqM_out x a.k) (fun _ _ h => h) fun _ _ => trivial) ?_
          rintro s1 b1 ⟨h1, hn1, rfl⟩
          split
          · rw [bind_ok (canMutate_eq (by rw [h1]; exact hc)), hm]
            simp only [Bool.false_eq_true, if_false]
            refine out_bind (out_mono (make_out a (some x)) (fun _ _ h => h) fun _ _ => trivial) ?_
            rintro s2 v ⟨h2, hn2, rfl⟩
            have h2 := h2.trans h1
            refine out_bind (out_mono (copyInnerReplaceValue_out hE (by rw [h2]; exact h) (by rw [h2]; exact ha) (cnt_lt_popcount hdm) _) (fun _ _ h => h) fun _ _ => trivial) ?_
            rintro s3 q ⟨hb, hk⟩
            refine out_bind (out_mono (BuiltV.ownedValues (e := e) hb (by
              intro h0
              have := congrArg List.length h0
              rw [List.length_set] at this
              have h4 := (List.getElem?_eq_some_iff.mp hx).1
              rw [this] at h4
              exact absurd h4 (Nat.not_lt_zero _))) (fun _ _ h => h) fun _ h => h.elim) ?_
            rintro s4 q' ⟨rfl, hb, hk4⟩
            refine ⟨rfl, _, Like.refl (fun z hz => (hf.2.2.2 z hz).1.shape), (fun hf => by cases hf), fun _ => ⟨hb.ht0.done (ht := e) (fun _ => rfl) ht, ?_⟩⟩
            rw [← h2]; exact hk.trans hk4
          · split
            · exact h1
            · rw [bind_ok (canMutate_eq (by rw [h1]; exact hc)), hm]
              simp only [Bool.false_eq_true, if_false]
              rw [bind_ok (show M.ret false s1 = .ok s1 false from rfl)]
              refine out_bind (out_mono (hashM_out x) (fun _ _ h => h) fun _ _ => trivial) ?_
              rintro s2 h2' ⟨h2, _, rfl⟩
              have h2 := h2.trans h1
              refine out_bind (out_mono (make_out a none) (fun _ _ h => h) fun _ _ => trivial) ?_
              rintro s3 v ⟨h3, _, rfl⟩
              have h3 := h3.trans h2
              simp only [Bool.false_eq_true, if_false]
              refine out_bind (out_mono (copyEl_out (s := s3) (by rw [h3]; exact hcv) hxe) (fun _ _ h => h) fun _ _ => trivial) ?_
              rintro s4 y ⟨hy, h4, _⟩
              rw [hy]
              have h4 := h4.trans h3
              refine out_bind (out_mono (makeMerged_out hE (some e) (a.g none) x hash (c.hash (c.key x)) d (shift + c.B) O _ s4 (by rw [h4]; exact h)) (fun _ _ h => h) fun _ _ => trivial) ?_
              rintro s5 q ⟨hi5, hk5⟩
              rw [h4] at hk5
              refine out_bind (Q := fun s' q' => BuiltV E u s'.mem O (⟨p, .node (.inner nm dm vs cs), t, b⟩ :: L) q' (nm ||| bitOf c.W (c.idx hash shift)) (dm &&& ~~~ bitOf c.W (c.idx hash shift))
                (vs.take (cnt dm (c.idx hash shift)) ++ vs.drop (cnt dm (c.idx hash shift) + 1))
                (cs.take (cnt nm (c.idx hash shift)) ++ Champ.makeMerged c d (shift + c.B) (a.g none) hash x (c.hash (c.key x)) :: cs.drop (cnt nm (c.idx hash shift))) (tokOf E e 0) (tokOf E e 0) (tokOf E e 0) ∧
                Kept (sys E u) O (⟨p, .node (.inner nm dm vs cs), t, b⟩ :: L) s.mem s'.mem) ?_ ?_
              · refine out_guard (E' := fun s' => s'.mem = s5.mem) ?_ ?_
                · refine out_bind (copyInnerReplaceMerged_out hE (r := ⟨q, .node _, tokIf E (some e), true⟩) rfl hi5 ((ha.kept hk5).mono fun _ h => List.mem_cons_of_mem _ h) hi hdm hnm) ?_
                  rintro s6 q' ⟨hb, hk6⟩
                  refine out_mono (BuiltV.ownedValuesSafe (e := e) hb) ?_ (fun _ h => h.elim)
                  rintro s7 q'' ⟨rfl, hb, hk7⟩
                  exact ⟨hb, (hk5.trans (Kept.tail hk6)).trans hk7⟩
                · intro s' hs'
                  exact out_mono (deleteDeep_uniq (r := ⟨q, .node _, tokIf E (some e), true⟩) rfl rfl (shape_makeMerged _ _ _ _ d (shift + c.B)) (by rw [hs']; exact hi5)) (fun _ _ _ => trivial) (fun _ h => h)
              · rintro s6 q' ⟨hb, hk6⟩
                refine ⟨rfl, _, Like.refl ?_, (fun hf => by cases hf), fun _ => ⟨hb.done tokOf_gc ht, hk6⟩⟩
                exact mem_splice (fun z hz => (hf.2.2.2 z hz).1.shape) (shape_makeMerged _ _ _ _ _ _)
        · rw [if_neg (hbit (Bool.eq_false_iff.mpr hdm))]
          have hdm := Bool.eq_false_iff.mpr hdm
          rw [put_empty hf hnm hdm]
          split
          · exact rfl
          · rw [bind_ok (canMutate_eq hc), hm]
            simp only [Bool.false_eq_true, if_false]
            refine out_bind (out_mono (make_out a none) (fun _ _ h => h) fun _ _ => trivial) ?_
            rintro s1 v ⟨h1, _, rfl⟩
            refine out_bind (out_mono (copyInnerInsertValue_out hE (by rw [h1]; exact h) (by rw [h1]; exact ha) hi hdm _) (fun _ _ h => h) fun _ _ => trivial) ?_
            rintro s2 q ⟨hb, hk⟩
            refine out_bind (out_mono (BuiltV.ownedValues (e := e) hb (by simp)) (fun _ _ h => h) fun _ h => h.elim) ?_
            rintro s3 q' ⟨rfl, hb, hk3⟩
            refine ⟨rfl, _, Like.refl (fun z hz => (hf.2.2.2 z hz).1.shape), (fun hf => by cases hf), fun _ => ⟨hb.ht0.done (ht := e) (fun _ => rfl) ht, ?_⟩⟩
            rw [← h1]; exact hk.trans hk3

end ChampHeap
