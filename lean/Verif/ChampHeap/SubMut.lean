import Verif.ChampHeap.PutMut

/-!
# The operation that changes nodes in place: erase

A child may be reduced to a single element, which then moves up.  That element is held in `store`, or is still in a node that
someone else uses, too; in the second case it has to survive the release of the nodes above it.
-/

namespace ChampHeap
open Mm Champ

variable {K T : Type} {c : Cfg K T} {E : Env (Dat c.W) T} {u : Toks E.gc} {O : List Nat} {L : List (Ref (Val c.W T))} {s : St (Dat c.W) T} {p e : Nat} {m : Mem (Dat c.W) T}

/-- the element a result refers to -/
def Holds (m : Mem (Dat c.W) T) (O : List Nat) (y : T) : Loc T → Prop
  | .store x => x = y
  | .at q i => q ∉ O ∧ ∃ cl, m q = some cl ∧ cl.els[i]? = some (.live y)

theorem take_out {l : Loc T} {y : T} (h : Holds s.mem O y l) : Out (l.take s) (fun s' y' => y' = y ∧ s'.mem = s.mem) (fun _ => True) := by
  cases l with
  | store x => exact ⟨h, rfl⟩
  | «at» q i =>
    obtain ⟨_, cl, hc, hi⟩ := h
    refine out_mono (copyEl_out hc hi) ?_ (fun _ _ => trivial)
    rintro s' b ⟨h1, h2, _⟩
    exact ⟨h1, h2⟩

/-- the element stays where it is when the node at `p` is released -/
def Surv (E : Env (Dat c.W) T) (m : Mem (Dat c.W) T) (d p : Nat) : Loc T → Prop
  | .store _ => False
  | .at q _ => (∃ cl, m p = some cl) ∧ (E.gc = true ∨ (∃ cl, m p = some cl ∧ 1 < cl.rc) ∨
      (p ≠ q ∧ (∃ d', d = d' + 1) ∧ ∃ cl dm cv, m p = some cl ∧ cl.rc = 1 ∧ cl.els = [] ∧ cl.data = .inner ⟨0#c.W, dm, some q, []⟩ ∧ m q = some cv ∧ 1 < cv.rc))

theorem Surv.mem {m' : Mem (Dat c.W) T} {d : Nat} {l : Loc T} (h : Surv E m d p l) (hp : m' p = m p) (hq : ∀ q i, l = .at q i → m' q = m q) : Surv E m' d p l := by
  cases l with
  | store => exact h
  | «at» q i =>
    have hq := hq q i rfl
    simp only [Surv] at h ⊢
    rw [hp, hq]; exact h

theorem release_surv {d q i : Nat} (h : Surv E s.mem d p (.at q i)) {cq : Cell (Dat c.W) T} (hq : s.mem q = some cq) :
    Out (release E d p s) (fun s' _ => ∃ cq', s'.mem q = some cq' ∧ cq'.els = cq.els) (fun _ => False) := by
  obtain ⟨⟨cp, hcp⟩, h⟩ := h
  unfold release
  by_cases hg : E.gc = true
  · rw [bind_ok (dec_gc hg hcp)]
    exact ⟨cq, hq, rfl⟩
  · have hg := Bool.eq_false_iff.mpr hg
    rcases h with h | ⟨cl, hc, hrc⟩ | ⟨hpq, ⟨d', rfl⟩, cl, dm, cv, hc, hrc, hels, hd, hv, hvrc⟩
    · rw [hg] at h; cases h
    · rw [bind_ok (dec_rc hg hc (by omega)), if_neg (by simp; omega)]
      show ∃ cq', upd s.mem p _ q = some cq' ∧ _
      by_cases hqp : q = p
      · subst hqp
        rw [hq] at hc; cases hc
        exact ⟨_, upd_self, rfl⟩
      · exact ⟨cq, by rw [upd_ne hqp]; exact hq, rfl⟩
    · rw [hq] at hv; cases hv
      rw [bind_ok (dec_rc hg hc (by omega)), if_pos (by simp [hrc])]
      unfold deleteDeep
      rw [bind_ok (getI_eq (c := { cl with rc := cl.rc - 1 }) upd_self hd)]
      simp only [popcount_zero]
      rw [show slice ([] : List Nat) 0 0 = some [] from rfl, bind_ok (liftO_eq rfl), bind_ok (show each _ [] _ = .ok _ () from rfl)]
      unfold deleteInner
      rw [bind_ok (getI_eq (c := { cl with rc := cl.rc - 1 }) upd_self hd)]
      simp only
      rw [M.bind]
      rw [bind_ok (dec_rc hg (c := cq) (by show upd s.mem p _ q = _; rw [upd_ne hpq.symm]; exact hq) (by omega)), if_neg (by simp; omega)]
      show Out (deallocInner p (popcount 0#c.W) _) _ _
      unfold deallocInner
      rw [dealloc_eq (room := room) (k := popcount 0#c.W) (c := { cl with rc := cl.rc - 1 }) (by show upd (upd s.mem p _) q _ p = _; rw [upd_ne hpq, upd_self]) (n := 0) hels (by rw [hd, popcount_zero]; rfl)]
      refine ⟨{ cq with rc := cq.rc - 1 }, ?_, rfl⟩
      show upd (upd (upd s.mem p _) q _) p _ q = _
      rw [upd_ne hpq.symm, upd_self]

theorem out_and {D X β : Type} {r : Res D X β} {Q Q' : St D X → β → Prop} {F F' : St D X → Prop} (h : Out r Q F) (h' : Out r Q' F') : Out r (fun s b => Q s b ∧ Q' s b) (fun s => F s ∧ F' s) := by
  cases r with
  | ok s b => exact ⟨h, h'⟩
  | thrown s => exact ⟨h, h'⟩
  | ub => exact h

theorem deleteInner_none {nm dm : BitVec c.W} {cs : List Nat} {cl : Cell (Dat c.W) T} (hc : s.mem p = some cl) (hd : cl.data = .inner ⟨nm, dm, none, cs⟩) (he : cl.els = []) (hn : cs.length = popcount nm) :
    deleteInner E p s = .ok { s with mem := upd s.mem p none } () := by
  unfold deleteInner
  rw [bind_ok (getI_eq hc hd)]
  show deallocInner p (popcount nm) s = _
  unfold deallocInner
  rw [dealloc_eq (room := room) (n := 0) hc he (by rw [hd]; exact hn)]

section
variable {nm dm : BitVec c.W} {xs : List T} {cl : Cell (Dat c.W) T} {vo : Option Nat} {cs : List Nat} {Lv X : List (Ref (Val c.W T))}

theorem OpenedR.mem {m' : Mem (Dat c.W) T} {L' X' : List (Ref (Val c.W T))} (h : OpenedR E u m O L p nm dm xs cl vo cs Lv X) (hi : Inv (sys E u) m' (p :: O) (Lv ++ (X' ++ L'))) (hc : m' p = m p) :
    OpenedR E u m' O L' p nm dm xs cl vo cs Lv X' := ⟨hc.trans h.cell, h.data, h.els, h.xlen, h.clen, h.vsome, h.vptr, h.vval, hi⟩

theorem OpenedR.unsh (he : E.gc = true → u.live e) (h : OpenedR E u m O L p nm dm xs cl vo cs Lv X) : Unsh E u e m O L p nm dm xs cl vo cs X (xs.map .live) := by
  refine ⟨h.xlen, h.clen, ?_⟩
  cases vo with
  | none => exact .inr ⟨Lv, h, fun v cv hv => by cases hv⟩
  | some v =>
    obtain ⟨cv, hc, _, _⟩ := h.value rfl
    cases hm : mutable E e cv with
    | true =>
      have hi := h.inv
      have hvp := h.vptr
      have hvv := h.vval
      cases Lv with
      | nil => cases hvp
      | cons r Lv =>
        simp only [Option.toList_some, List.map_cons, List.cons.injEq, List.map_eq_nil_iff] at hvp
        obtain ⟨rfl, rfl⟩ := hvp
        obtain ⟨Lo, ho, hok, htk, hi⟩ := Inv.open_ (r := r) hi hc (by rcases mutable_open he hm with h | h; exacts [.inl h, .inr (.inl h)])
        rw [hvv r List.mem_cons_self] at hok
        obtain ⟨h1, h2, h3⟩ := okD_vals hok
        have : Lo = [] := List.map_eq_nil_iff.mp h3
        subst this
        refine .inl ⟨r.ptr, cv, rfl, ⟨h.cell, h.data, h.els, hc, h1, hi, (mutable_cases hm).1, (mutable_cases hm).2⟩, h2, hm, ?_⟩
        rw [← h.xlen]
        have := h.vsome
        cases xs with
        | nil => cases this
        | cons => simp
    | false =>
      refine .inr ⟨Lv, h, ?_⟩
      intro v' cv' hv hc'
      cases hv
      rw [hc] at hc'; cases hc'; exact hm

end

/-- The outcome of `doSubMut`, and what it should be.  If `mutated` the node itself is gone. -/
def SubM (E : Env (Dat c.W) T) (u : Toks E.gc) (O : List Nat) (L : List (Ref (Val c.W T))) (d : Nat) (N : c.N) (x : Ref (Val c.W T)) (m m' : Mem (Dat c.W) T) :
    SubRM T → Option (SubResult c.N T) → Prop
  | .nothing, some .nothing => m' = m
  | .single l mu, some (.singleton y) => Holds m' O y l ∧ (mu = true → Inv (sys E u) m' O L ∧ Kept (sys E u) O L m m') ∧ (mu = false → m' = m ∧ Surv E m d x.ptr l)
  | .tree r mu, some (.tree N') => ∃ N'' b, Like d N' N'' ∧ (Big N → b = true) ∧
      (mu = true → Inv (sys E u) m' O (⟨r, .node N'', x.tok, b⟩ :: L) ∧ Kept (sys E u) O L m m') ∧
      (mu = false → Inv (sys E u) m' O (⟨r, .node N'', x.tok, b⟩ :: x :: L) ∧ Kept (sys E u) O (x :: L) m m')
  | _, _ => False

theorem shared_rc {v : Val c.W T} {t : Nat} {b : Bool} {cl : Cell (Dat c.W) T} (h : Inv (sys E u) m O (⟨p, v, t, b⟩ :: L)) (hc : m p = some cl) (hm : mutable E e cl = false) :
    E.gc = true ∨ (∃ cl, m p = some cl ∧ 1 < cl.rc) := by
  by_cases hg : E.gc = true
  · exact .inl hg
  · right
    have hg := Bool.eq_false_iff.mpr hg
    obtain ⟨c'', _, hc'', _, _, _, hrc, _⟩ := h.look (r := ⟨p, v, t, b⟩) List.mem_cons_self
    have hc'' : m p = some c'' := hc''
    rw [hc] at hc''; cases hc''
    refine ⟨cl, hc, ?_⟩
    have := hrc hg
    unfold mutable at hm
    rw [hg] at hm
    simp at hm
    omega

/-- a reference to the empty node may be held by anyone -/
theorem empty_tok {em t : Nat} (h : Inv (sys E u) m O (⟨em, .node emptyNode, 0, false⟩ :: L)) : Inv (sys E u) m O (⟨em, .node emptyNode, t, false⟩ :: L) := by
  refine h.weaken (r := (⟨em, .node emptyNode, 0, false⟩ : Ref (Val c.W T))) ?_ (b := false) (fun hb => by cases hb)
  intro cl hc hl
  obtain ⟨c'', _, hc'', _, _, h3, _⟩ := h.look (r := (⟨em, .node emptyNode, 0, false⟩ : Ref (Val c.W T))) List.mem_cons_self
  have hc'' : m em = some c'' := hc''
  have hc : m em = some cl := hc
  rw [hc] at hc''; cases hc''
  have := h3 hl
  exact absurd hl (by rw [this]; exact u.live0)

theorem doSubMut_out (hE : E.Fresh) (he : E.gc = true → u.live e) {em : Nat} (k : K) : ∀ (d : Nat) (N : c.N) (p : Nat) (hash : BitVec 64) (shift : Nat) (O : List Nat) (L : List (Ref (Val c.W T))) (t : Nat) (b : Bool)
    (s : St (Dat c.W) T), (⟨em, .node emptyNode, 0, false⟩ : Ref (Val c.W T)) ∈ L → Form d N → (E.gc = true → t = e) → Inv (sys E u) s.mem O (⟨p, .node N, t, b⟩ :: L) →
    Out (doSubMut c E em e k d p hash shift s) (fun s' r => SubM E u O L d N ⟨p, .node N, t, b⟩ s.mem s'.mem r (Champ.doSub c d N k hash shift)) (fun _ => True)
  | 0, .inner .., _, _, _, _, _, _, _, _, _, h, _, _ => h.elim
  | _ + 1, .collision _, _, _, _, _, _, _, _, _, _, h, _, _ => h.elim
  | 0, .collision vs, p, hash, shift, O, L, t, b, s, hem, hf, ht, h => by
    obtain ⟨cl, _, hc, _, hok, _, _, hpO⟩ := h.look (r := ⟨p, .node (.collision vs), t, b⟩) List.mem_cons_self
    obtain ⟨hd, hels, _⟩ := okD_coll hok
    have hc : s.mem p = some cl := hc
    have hpO : p ∉ O := hpO
    rw [doSubMut, Champ.doSub]
    rw [bind_ok (canMutate_eq hc), bind_ok (collCount_eq hc hd)]
    refine out_bind (out_mono (scan_all hc hels) (fun _ _ h => h) fun s' h' => trivial) ?_
    rintro s1 o ⟨h1, hn1, rfl⟩
    have hc1 : s1.mem p = some cl := by rw [h1]; exact hc
    cases hx : vs.findIdx? (fun x => c.eqv (c.key x) k) with
    | none => exact h1
    | some pos =>
      obtain ⟨x, hx1, hx2, hx3, _⟩ := findIdx?_split hx
      simp only [Option.bind_eq_bind, copyCollisionRemove_eq hx3]
      by_cases hl : vs.length ≤ 2
      · rw [if_pos hl, if_neg (show ¬ vs.length > 2 by omega)]
        obtain ⟨y, hy⟩ := other_lt (show 2 ≤ vs.length from hf) pos
        have hye : cl.els[if pos = 0 then 1 else 0]? = some (.live y) := by rw [hels, List.getElem?_map, hy]; rfl
        rw [hy]
        by_cases hm : mutable E e cl = true
        · rw [if_pos hm, bind_ok (moveEl_eq hc1 hye)]
          obtain ⟨_, _, ho⟩ := open_coll he h hc hm
          rw [h1]
          refine out_bind (out_mono (deleteCollision_open (s := { s1 with mem := _ }) (ho.write List.mem_cons_self _) upd_self (n := vs.length) hd (by rw [List.length_set, hels, List.length_map]) ?_) (fun _ _ h => h) fun _ h => h.elim) ?_
          · intro z hz
            rcases List.mem_or_eq_of_mem_set hz with hz | rfl
            · rw [hels] at hz
              obtain ⟨_, _, rfl⟩ := List.mem_map.mp hz
              rfl
            · rfl
          · intro s2 _ hg
            exact ⟨rfl, fun _ => ⟨hg.1, (Kept.write ho _).trans hg.2⟩, fun hf => by cases hf⟩
        · rw [if_neg hm]
          have hm := Bool.eq_false_iff.mpr hm
          exact ⟨⟨hpO, cl, hc1, hye⟩, (fun hf => by cases hf), fun _ => ⟨h1, ⟨cl, hc⟩, by rcases shared_rc h hc hm with h | h; exacts [.inl h, .inr (.inl h)]⟩⟩
      · rw [if_neg hl, if_pos (show vs.length > 2 by omega)]
        by_cases hm : mutable E e cl = true
        · obtain ⟨_, _, ho⟩ := open_coll he h hc hm
          rw [if_pos hm]
          refine out_bind (out_mono (moveCollisionRemove_out hE (by rw [h1]; exact ho) hc1 hd hels hx3) (fun _ _ h => h) fun _ _ => trivial) ?_
          rintro s3 q ⟨hb, hk⟩
          refine out_bind (out_mono (BuiltC.owned (e := e) hb) (fun _ _ h => h) fun _ h => h.elim) ?_
          rintro s4 q' ⟨rfl, hb, hk4⟩
          rw [hm]
          refine ⟨_, true, Like.refl trivial, fun _ => rfl, fun _ => ⟨hb.done ht, ?_⟩, (fun hf => by cases hf)⟩
          rw [← h1]; exact hk.trans hk4
        · rw [if_neg hm]
          have hm := Bool.eq_false_iff.mpr hm
          refine out_bind (out_mono (copyCollisionRemove_out hE (by rw [h1]; exact h) (by rw [h1]; exact at_of_shared h hc hm ht) hx3) (fun _ _ h => h) fun _ _ => trivial) ?_
          rintro s3 q ⟨hb, hk⟩
          refine out_bind (out_mono (BuiltC.owned (e := e) hb) (fun _ _ h => h) fun _ h => h.elim) ?_
          rintro s4 q' ⟨rfl, hb, hk4⟩
          rw [hm]
          refine ⟨_, true, Like.refl trivial, fun _ => rfl, (fun hf => by cases hf), fun _ => ⟨hb.done ht, ?_⟩⟩
          rw [← h1]; exact hk.trans hk4
  | d + 1, .inner nm dm vs cs, p, hash, shift, O, L, t, b, s, hem, hf, ht, h => by
    have hi := idx_lt c hash shift
    obtain ⟨cl, _, hc, _, hok, _, _, hpO⟩ := h.look (r := ⟨p, .node (.inner nm dm vs cs), t, b⟩) List.mem_cons_self
    obtain ⟨vo, cps, hd, hels, hin⟩ := okD_inner hok
    have hc : s.mem p = some cl := hc
    have hbit : ∀ {bm : BitVec c.W}, bm.getLsbD (c.idx hash shift) = false → ¬ bm &&& bitOf c.W (c.idx hash shift) ≠ 0#c.W := fun hb h => by
      rw [(and_bitOf_ne_zero hi).mp h] at hb; cases hb
    rw [doSubMut]
    rw [bind_ok (canMutate_eq hc), bind_ok (getI_eq hc hd)]
    simp only
    rw [rank_eq_cnt nm hi, rank_eq_cnt dm hi]
    by_cases hm : mutable E e cl = true
    · -- the node may be changed
      obtain ⟨vo', cps', Lv, Lc, ho⟩ := open_inner he h hc hm
      obtain ⟨rfl, rfl⟩ : vo = vo' ∧ cps = cps' := by
        have := hd.symm.trans ho.data
        simp only [Dat.inner.injEq, Inner.mk.injEq, true_and] at this
        exact this
      rw [hm]
      simp only [if_true]
      by_cases hnm : nm.getLsbD (c.idx hash shift) = true
      · rw [if_pos ((and_bitOf_ne_zero hi).mpr hnm)]
        have hdm : dm.getLsbD (c.idx hash shift) = false := by
          have := hf.1 (c.idx hash shift)
          rwa [hnm, Bool.true_and] at this
        obtain ⟨ch, hch, hfc, hbig⟩ := form_child hf hnm
        obtain ⟨A, x, B, rfl, hA, hxv, hxp⟩ := ho.child hch
        rw [doSub_child hf hnm hch, bind_ok (liftO_eq hxp)]
        obtain ⟨xp, xv, xt, xb⟩ := x
        simp only at hxv hxp
        subst hxv
        have hxt : xt = cl.tok := ho.toks ⟨xp, .node ch, xt, xb⟩ (by simp)
        subst hxt
        refine out_bind (doSubMut_out hE he k d ch xp hash (shift + c.B) (p :: O) (Lv ++ ((A ++ B) ++ L)) cl.tok xb s (by simp [hem]) hfc ho.ctok (ho.inv.permL (perm_child _ _ _ _ _))) ?_
        intro s1 r hp
        cases hpt : Champ.doSub c d ch k hash (shift + c.B) with
        | none => rw [hpt] at hp; cases r <;> exact hp.elim
        | some o =>
          rw [hpt] at hp
          cases r with
          | nothing => cases o with
            | nothing => exact hp
            | singleton => exact hp.elim
            | tree => exact hp.elim
          | single l mu => cases o with
            | nothing => exact hp.elim
            | tree => exact hp.elim
            | singleton y =>
              obtain ⟨hh, hmu, hmn⟩ := hp
              simp only [Option.map_some, subChild]
              split
              · rename_i hcond
                obtain ⟨hdm0, hnm1, _⟩ := hcond
                have hv0 : vs = [] := List.eq_nil_of_length_eq_zero (by rw [hf.2.1, hdm0, popcount_zero])
                subst hv0
                have hvo : vo = none := by
                  have := ho.vsome
                  cases vo with
                  | none => rfl
                  | some => cases this
                subst hvo
                have hLv : Lv = [] := List.map_eq_nil_iff.mp ho.parts.vptr
                have hlen : (A ++ (⟨xp, .node ch, cl.tok, xb⟩ : Ref (Val c.W T)) :: B).length = 1 := by
                  have := congrArg List.length ho.parts.cptr
                  rw [List.length_map] at this
                  rw [this, ho.clen, hnm1]
                have hA0 : A = [] := List.eq_nil_of_length_eq_zero (by simp at hlen; omega)
                have hB0 : B = [] := List.eq_nil_of_length_eq_zero (by simp at hlen; omega)
                subst hLv hA0 hB0
                cases mu with
                | true =>
                  obtain ⟨hi1, hk1⟩ := hmu rfl
                  have hc1 : s1.mem p = some cl := (hk1.2 p List.mem_cons_self).trans hc
                  rw [bind_assoc', bind_ok (deleteInner_none hc1 hd hels ho.clen)]
                  refine ⟨?_, fun _ => ⟨hi1.free, (hk1.mono (fun _ h => h) fun _ h => List.mem_cons_of_mem _ h).trans (Kept.write hi1 _)⟩, fun hf => by cases hf⟩
                  cases l with
                  | store => exact hh
                  | «at» q i =>
                    obtain ⟨hq, cq, hcq, hy⟩ := hh
                    simp only [List.mem_cons, not_or] at hq
                    exact ⟨hq.2, cq, by show upd s1.mem p none q = _; rw [upd_ne hq.1]; exact hcq, hy⟩
                | false =>
                  obtain ⟨h1, hsv⟩ := hmn rfl
                  have hc1 : s1.mem p = some cl := by rw [h1]; exact hc
                  rw [bind_assoc', bind_ok (deleteInner_none hc1 hd hels ho.clen)]
                  simp only [Bool.false_eq_true, if_false]
                  cases l with
                  | store => exact hsv.elim
                  | «at» q i =>
                    obtain ⟨hq, cq, hcq, hy⟩ := hh
                    simp only [List.mem_cons, not_or] at hq
                    have hi1 : Inv (sys E u) s.mem (p :: O) (⟨xp, .node ch, cl.tok, xb⟩ :: L) := ho.inv
                    have hxp' : xp ≠ p := hi1.ref_ne_open (r := ⟨xp, .node ch, cl.tok, xb⟩) List.mem_cons_self List.mem_cons_self
                    have hcq' : upd s1.mem p none q = some cq := by rw [upd_ne hq.1]; exact hcq
                    have hsv' : Surv E (upd s1.mem p none) d xp (.at q i) := hsv.mem (by rw [upd_ne hxp', h1]) (by
                      intro q' i' hqi
                      cases hqi
                      rw [upd_ne hq.1, h1])
                    refine out_bind (out_mono (out_and (release_out (s := { s1 with mem := upd s1.mem p none }) (r := ⟨xp, .node ch, cl.tok, xb⟩) rfl hfc.shape (by rw [h1]; exact hi1.free))
                      (release_surv (s := { s1 with mem := upd s1.mem p none }) hsv' hcq')) (fun _ _ h => h) fun _ h => h.1.elim) ?_
                    rintro s2 _ ⟨hg, cq', hcq2, hce⟩
                    refine ⟨⟨hq.2, cq', hcq2, by rw [hce]; exact hy⟩, fun _ => ⟨hg.1, ?_⟩, fun hf => by cases hf⟩
                    rw [← h1] at hi1 ⊢
                    exact ((Kept.write hi1 _).mono (fun z hz => by simp [hz]) fun _ h => h).trans hg.2
              · -- the element comes up into this node
                refine out_bind (take_out hh) ?_
                rintro s2 y' ⟨rfl, h2⟩
                have hapt : A.map Ref.ptr = cps.take (cnt nm (c.idx hash shift)) := by
                  rw [← ho.parts.cptr, ← hA]; simp
                have hbpt : B.map Ref.ptr = cps.drop (cnt nm (c.idx hash shift) + 1) := by
                  rw [← ho.parts.cptr, ← hA]; simp [List.drop_append]
                have hval : (A ++ B).map Ref.val = (cs.take (cnt nm (c.idx hash shift)) ++ cs.drop (cnt nm (c.idx hash shift) + 1)).map Val.node := by
                  rw [List.map_append, List.map_append, List.map_take, List.map_drop, ← ho.parts.cval, ← hA]; simp [List.drop_append]
                have htk : ∀ z ∈ A ++ B, z.tok = 0 ∨ z.tok = cl.tok := fun z hz => .inr (ho.toks z (by
                  simp only [List.mem_append, List.mem_cons] at hz ⊢
                  rcases hz with hz | hz <;> simp [hz]))
                have hshape : ∀ z ∈ cs.take (cnt nm (c.idx hash shift)) ++ cs.drop (cnt nm (c.idx hash shift) + 1), Shape d z := mem_erase' fun z hz => (hf.2.2.2 z hz).1.shape
                cases mu with
                | true =>
                  obtain ⟨hi1, hk1⟩ := hmu rfl
                  have hun := (ho.ref.mem (m' := s2.mem) (L' := L) (X' := A ++ B) (by rw [h2]; exact hi1) (by rw [h2]; exact hk1.2 p List.mem_cons_self)).unsh he
                  refine out_bind (out_mono (moveInnerReplaceInline_out hE hun hapt hbpt hval htk hi hdm hnm y') (fun _ _ h => h) fun _ _ => trivial) ?_
                  rintro s3 q ⟨hb, hk3⟩
                  simp only [Bool.not_true, Bool.false_and, Bool.false_eq_true, if_false]
                  rw [bind_ok (show M.ret () s3 = .ok s3 () from rfl)]
                  refine out_bind (out_mono (BuiltV.ownedValues (e := e) hb (by simp)) (fun _ _ h => h) fun _ h => h.elim) ?_
                  rintro s4 q' ⟨rfl, hb, hk4⟩
                  refine ⟨_, true, Like.refl hshape, fun _ => rfl, fun _ => ⟨hb.done ho.ctok ht, ?_⟩, fun hf => by cases hf⟩
                  rw [h2] at hk3
                  exact ((hk1.mono (fun z hz => by simp [hz]) fun _ h => List.mem_cons_of_mem _ h).trans hk3).trans hk4
                | false =>
                  obtain ⟨h1, hsv⟩ := hmn rfl
                  have h2 := h2.trans h1
                  have hun := (ho.ref.mem (L' := ⟨xp, .node ch, cl.tok, xb⟩ :: L) (X' := A ++ B) (m' := s2.mem) (by
                    rw [h2]
                    refine ho.inv.permL (.append_left _ ?_)
                    simp only [List.append_assoc, List.cons_append]
                    exact .append_left _ List.perm_middle.symm) (by rw [h2])).unsh he
                  refine out_bind (out_mono (moveInnerReplaceInline_out hE hun hapt hbpt hval htk hi hdm hnm y') (fun _ _ h => h) fun _ _ => trivial) ?_
                  rintro s3 q ⟨hb, hk3⟩
                  simp only [Bool.not_false, Bool.true_and, if_true]
                  refine out_bind (out_mono (BuiltV.after (O1 := []) (L1 := [⟨xp, .node ch, cl.tok, xb⟩]) hb (f := release E d xp)
                    fun O' L' hi' => release_out (r := ⟨xp, .node ch, cl.tok, xb⟩) rfl hfc.shape hi') (fun _ _ h => h) fun _ h => h.elim) ?_
                  rintro s4 _ ⟨hb, hk4⟩
                  refine out_bind (out_mono (BuiltV.ownedValues (e := e) hb (by simp)) (fun _ _ h => h) fun _ h => h.elim) ?_
                  rintro s5 q' ⟨rfl, hb, hk5⟩
                  refine ⟨_, true, Like.refl hshape, fun _ => rfl, fun _ => ⟨hb.done ho.ctok ht, ?_⟩, fun hf => by cases hf⟩
                  rw [h2] at hk3
                  exact ((Kept.tail hk3).trans hk4).trans hk5
          | tree q mu => cases o with
            | nothing => exact hp.elim
            | singleton => exact hp.elim
            | tree N' =>
              obtain ⟨N'', b', hlk, hb', hmu, hmn⟩ := hp
              have hb' := hb' hbig
              subst hb'
              simp only [Option.map_some, subChild]
              cases mu with
              | true =>
                obtain ⟨hi1, hk1⟩ := hmu rfl
                have hc1 : s1.mem p = some cl := (hk1.2 p List.mem_cons_self).trans hc
                rw [bind_ok (writeKids_eq hc1 hd (by simp only [List.length_singleton, ho.clen]; exact cnt_lt_popcount hnm))]
                have hset := ho.setChild (y := ⟨q, .node N'', cl.tok, true⟩) (hi1.permL (perm_child _ _ _ _ _).symm) rfl rfl
                rw [hA] at hset
                have hcs : List.take (cnt nm (c.idx hash shift)) cps ++ [q] ++ List.drop (cnt nm (c.idx hash shift) + [q].length) cps = cps.set (cnt nm (c.idx hash shift)) q := by
                  rw [List.set_eq_take_append_cons_drop, if_pos (by rw [ho.clen]; exact cnt_lt_popcount hnm)]; simp
                simp only [hcs]
                refine ⟨_, true, like_set hf.shape hlk, fun _ => rfl, fun _ => ⟨hset.close ht, ?_⟩, (fun hf => by cases hf)⟩
                refine (hk1.mono (fun z hz => by simp [hz]) fun _ h => List.mem_cons_of_mem _ h).trans ?_
                exact (Kept.write hi1 _).mono (fun z hz => by simp [hz]) fun _ h => h
              | false =>
                obtain ⟨hi1, hk1⟩ := hmn rfl
                have hc1 : s1.mem p = some cl := (hk1.2 p List.mem_cons_self).trans hc
                rw [bind_ok (writeKids_eq hc1 hd (by simp only [List.length_singleton, ho.clen]; exact cnt_lt_popcount hnm))]
                have hset := ho.setChild (y := ⟨q, .node N'', cl.tok, true⟩) (L' := ⟨xp, .node ch, cl.tok, xb⟩ :: L) (hi1.permL (by
                  refine .trans ?_ (perm_child _ _ _ _ _).symm
                  refine .cons _ ?_
                  simp only [← List.append_assoc]
                  exact List.perm_middle.symm)) rfl rfl
                rw [hA] at hset
                have hcs : List.take (cnt nm (c.idx hash shift)) cps ++ [q] ++ List.drop (cnt nm (c.idx hash shift) + [q].length) cps = cps.set (cnt nm (c.idx hash shift)) q := by
                  rw [List.set_eq_take_append_cons_drop, if_pos (by rw [ho.clen]; exact cnt_lt_popcount hnm)]; simp
                simp only [hcs, Bool.false_eq_true, if_false]
                refine out_bind (out_mono (release_out (s := { s1 with mem := _ }) (r := ⟨xp, .node ch, cl.tok, xb⟩) (O := p :: O) (L := Lv ++ ((A ++ ⟨q, .node N'', cl.tok, true⟩ :: B) ++ L)) rfl hfc.shape (hset.inv.permL (by
                  simp only [← List.append_assoc]
                  exact List.perm_middle))) (fun _ _ h => h) fun _ h => h.elim) ?_
                intro s2 _ hg
                refine ⟨_, true, like_set hf.shape hlk, fun _ => rfl, fun _ => ⟨(hset.mem hg.1 (hg.2.2 p List.mem_cons_self)).close ht, ?_⟩, (fun hf => by cases hf)⟩
                refine (hk1.mono (fun z hz => by simp [hz]) fun _ h => List.mem_cons_of_mem _ h).trans ?_
                refine ((Kept.write hi1 (some { cl with data := .inner ⟨nm, dm, vo, cps.set (cnt nm (c.idx hash shift)) q⟩ })).mono (fun z hz => by simp [hz]) fun _ h => h).trans ?_
                exact hg.2.mono (fun z hz => by simp [hz]) fun _ h => List.mem_cons_of_mem _ h
      · rw [if_neg (hbit (Bool.eq_false_iff.mpr hnm))]
        have hnm := Bool.eq_false_iff.mpr hnm
        by_cases hdm : dm.getLsbD (c.idx hash shift) = true
        · rw [if_pos ((and_bitOf_ne_zero hi).mpr hdm)]
          obtain ⟨x, hx⟩ := form_value hf hdm
          have hv0 : vs ≠ [] := by rintro rfl; cases hx
          obtain ⟨sv, rfl⟩ : ∃ v, vo = some v := by
            apply Option.isSome_iff_exists.mp
            rw [ho.vsome]
            cases vs with
            | nil => exact absurd rfl hv0
            | cons => rfl
          obtain ⟨cv, hcv, hvdata, hvels⟩ := ho.ref.value rfl
          have hxe : cv.els[cnt dm (c.idx hash shift)]? = some (.live x) := by rw [hvels, List.getElem?_map, hx]; rfl
          rw [doSub_value hf hnm hdm hx, bind_ok (liftO_eq rfl), bind_ok (canMutate_eq hcv), bind_ok (readEl_eq hcv hxe)]
          refine out_bind (out_mono (eqM_out x k) (fun _ _ h => h) fun _ _ => trivial) ?_
          rintro s1 b1 ⟨h1, hn1, rfl⟩
          split
          · split
            · refine out_bind (out_mono (moveInnerRemoveValue_out hE he (s := s1) (by rw [h1]; exact ho) hi hdm) (fun _ _ h => h) fun _ _ => trivial) ?_
              rintro s2 q ⟨hb, hk⟩
              refine out_bind (out_mono (BuiltV.ownedValuesSafe (e := e) hb) (fun _ _ h => h) fun _ h => h.elim) ?_
              rintro s3 q' ⟨rfl, hb, hk3⟩
              refine ⟨_, true, Like.refl (fun z hz => (hf.2.2.2 z hz).1.shape), fun _ => rfl, fun _ => ⟨hb.done ho.ctok ht, ?_⟩, fun hf => by cases hf⟩
              rw [← h1]; exact hk.trans hk3
            · rename_i hnb
              have hnm0 : nm = 0#c.W := by by_contra hne; exact hnb (.inl hne)
              have hcs0 : cps = [] := List.eq_nil_of_length_eq_zero (by rw [ho.clen, hnm0, popcount_zero])
              have hLc : Lc = [] := List.map_eq_nil_iff.mp (by rw [ho.parts.cptr, hcs0])
              subst hLc
              split
              · rename_i h2
                obtain ⟨y, hy⟩ := other_lt (xs := vs) (by rw [hf.2.1, h2]) (cnt dm (c.idx hash shift))
                have hye : cv.els[if cnt dm (c.idx hash shift) = 0 then 1 else 0]? = some (.live y) := by rw [hvels, List.getElem?_map, hy]; rfl
                have hth : ∀ z ∈ cv.els.set (if cnt dm (c.idx hash shift) = 0 then 1 else 0) Slot.moved, z.there = true := by
                  intro z hz
                  rcases List.mem_or_eq_of_mem_set hz with hz | rfl
                  · rw [hvels] at hz
                    obtain ⟨_, _, rfl⟩ := List.mem_map.mp hz
                    rfl
                  · rfl
                have hmlen : (cv.els.set (if cnt dm (c.idx hash shift) = 0 then 1 else 0) Slot.moved).length = popcount dm := by rw [List.length_set, hvels, List.length_map, ho.xlen]
                rw [hy]
                simp only [Option.map_some]
                by_cases hmv : mutable E e cv = true
                · obtain ⟨hov, _⟩ := ho.openV he hcv hmv
                  have hvp : sv ≠ p ∧ sv ∉ O := by
                    have := hov.inv.open_nodup
                    simp only [List.nodup_cons, List.mem_cons, not_or] at this
                    exact this.1
                  simp only [hmv, if_true]
                  have hk2 : Kept (sys E u) O L s.mem (upd s.mem sv (some { cv with els := cv.els.set (if cnt dm (c.idx hash shift) = 0 then 1 else 0) Slot.moved })) :=
                    (Kept.upd (O := O) hov.inv (.inl List.mem_cons_self) hvp.2 _).mono (fun z hz => by simp [hz]) fun _ h => h
                  split
                  · rw [bind_ok (moveEl_eq (by rw [h1]; exact hcv) hye), h1]
                    refine out_bind (out_mono (deleteInner_openV (s := { s1 with mem := _ }) (L := [] ++ L) (hov.inv.write List.mem_cons_self _) (by show upd s.mem sv _ p = _; rw [upd_ne hvp.1.symm]; exact hc) hd hels upd_self hvdata hmlen hth hov.vrc ho.clen)
                      (fun _ _ h => h) fun _ h => h.elim) ?_
                    intro s2 _ hg
                    exact ⟨rfl, fun _ => ⟨hg.1, hk2.trans hg.2⟩, fun hf => by cases hf⟩
                  · rw [bind_ok (moveEl_eq (by rw [h1]; exact hcv) hye), h1]
                    refine out_bind (out_mono (makeInner1_out hE (s := { s1 with mem := _ }) (O := sv :: p :: O) (L := [] ++ L) (hov.inv.write List.mem_cons_self _) (dm &&& ~~~ bitOf c.W (c.idx hash shift)) (by have := popcount_andNot hi hdm; omega) y)
                      (fun _ _ h => h) fun _ _ => trivial) ?_
                    rintro s3 q ⟨hb, hk3⟩
                    have hc3 : s3.mem p = some cl := by rw [hk3.2 p (by simp)]; show upd s.mem sv _ p = _; rw [upd_ne hvp.1.symm]; exact hc
                    have hv3 : s3.mem sv = _ := (hk3.2 sv (by simp)).trans upd_self
                    refine out_bind (out_mono (BuiltV.after (O1 := [sv, p]) (L1 := []) hb (f := deleteInner E p)
                      fun O' L' hi' => deleteInner_openV hi' hc3 hd hels hv3 hvdata hmlen hth hov.vrc ho.clen) (fun _ _ h => h) fun _ h => h.elim) ?_
                    rintro s4 _ ⟨hb, hk4⟩
                    refine out_bind (out_mono (BuiltV.ownedValues (e := e) hb (by simp)) (fun _ _ h => h) fun _ h => h.elim) ?_
                    rintro s5 q' ⟨rfl, hb, hk5⟩
                    exact ⟨_, true, Like.refl (fun z hz => by cases hz), fun _ => rfl, fun _ => ⟨hb.ht0.done (ht := e) (fun _ => rfl) ht,
                      ((hk2.trans (hk3.mono (fun _ h => h) fun z hz => by simp [hz])).trans hk4).trans hk5⟩, fun hf => by cases hf⟩
                · simp only [hmv, Bool.false_eq_true, if_false]
                  have hmv := Bool.eq_false_iff.mpr hmv
                  have hsv : ∃ r ∈ Lv, r.ptr = sv := by
                    have := ho.parts.vptr
                    have h0 : sv ∈ Lv.map Ref.ptr := by rw [this]; simp
                    obtain ⟨r, hr, hrp⟩ := List.mem_map.mp h0
                    exact ⟨r, hr, hrp⟩
                  obtain ⟨r, hr, hrp⟩ := hsv
                  obtain ⟨cv', _, hcv', _, _, _, hvrc, hvO⟩ := ho.inv.look (r := r) (List.mem_append_left _ hr)
                  rw [hrp, hcv] at hcv'; cases hcv'
                  rw [hrp] at hvO
                  simp only [List.mem_cons, not_or] at hvO
                  split
                  · refine ⟨⟨hvO.2, cv, by rw [h1]; exact hcv, hye⟩, (fun hf => by cases hf), fun _ => ⟨h1, ⟨cl, hc⟩, ?_⟩⟩
                    by_cases hg : E.gc = true
                    · exact .inl hg
                    · have hg := Bool.eq_false_iff.mpr hg
                      refine .inr (.inr ⟨Ne.symm hvO.1, ⟨d, rfl⟩, cl, dm, cv, hc, ho.rc hg, hels, by rw [hd, hnm0, hcs0], hcv, ?_⟩)
                      have := hvrc hg
                      unfold mutable at hmv
                      rw [hg] at hmv
                      simp at hmv
                      omega
                  · refine out_bind (out_mono (copyEl_out (by rw [h1]; exact hcv) hye) (fun _ _ h => h) fun _ _ => trivial) ?_
                    rintro s2 y' ⟨hy', h2', _⟩
                    rw [hy']
                    have h2' := h2'.trans h1
                    refine out_bind (out_mono (makeInner1_out hE (s := s2) (O := p :: O) (L := Lv ++ ([] ++ L)) (by rw [h2']; exact ho.inv) (dm &&& ~~~ bitOf c.W (c.idx hash shift)) (by have := popcount_andNot hi hdm; omega) y)
                      (fun _ _ h => h) fun _ _ => trivial) ?_
                    rintro s3 q ⟨hb, hk3⟩
                    have hc3 : s3.mem p = s.mem p := by rw [hk3.2 p (by simp), h2']
                    refine out_bind (out_mono (BuiltV.after (O1 := [p]) (L1 := Lv) hb (f := deleteInner E p)
                      fun O' L' hi' => ho.ref.del hc3 hi') (fun _ _ h => h) fun _ h => h.elim) ?_
                    rintro s4 _ ⟨hb, hk4⟩
                    refine out_bind (out_mono (BuiltV.ownedValues (e := e) hb (by simp)) (fun _ _ h => h) fun _ h => h.elim) ?_
                    rintro s5 q' ⟨rfl, hb, hk5⟩
                    rw [h2'] at hk3
                    exact ⟨_, true, Like.refl (fun z hz => by cases hz), fun _ => rfl, fun _ => ⟨hb.ht0.done (ht := e) (fun _ => rfl) ht,
                      ((hk3.mono (fun z hz => List.mem_append_right _ hz) fun z hz => List.mem_cons_of_mem _ hz).trans hk4).trans hk5⟩, fun hf => by cases hf⟩
              · rename_i h2
                refine out_bind (out_mono (ho.ref.del (s2 := s1) (O' := O) (L' := L) (by rw [h1]) (by rw [h1]; exact ho.inv)) (fun _ _ h => h) fun _ h => h.elim) ?_
                intro s2 _ hg
                refine out_bind (out_mono (empty_out hem hg.1) (fun _ _ h => h) fun _ h => h.elim) ?_
                rintro s3 q ⟨rfl, hi3, hk3⟩
                refine ⟨_, false, Like.refl (fun z hz => by cases hz), fun hb => ?_, fun _ => ⟨empty_tok hi3, ?_⟩, fun hf => by cases hf⟩
                · rcases hb with hb | hb
                  · exact absurd (.inl hb) hnb
                  · exact absurd (.inr (by omega)) hnb
                · rw [← h1]; exact hg.2.trans hk3
          · exact h1
        · rw [if_neg (hbit (Bool.eq_false_iff.mpr hdm))]
          rw [doSub_empty hnm (Bool.eq_false_iff.mpr hdm)]
          exact rfl
    · -- it may not
      have hm := Bool.eq_false_iff.mpr hm
      have ha := at_of_shared h hc hm ht
      obtain ⟨cl', vo', cps', Lc, hr⟩ := read h ha
      obtain rfl : cl = cl' := by have := hc.symm.trans hr.cell; exact Option.some.inj this
      obtain ⟨rfl, rfl⟩ : vo = vo' ∧ cps = cps' := by
        have := hd.symm.trans hr.data
        simp only [Dat.inner.injEq, Inner.mk.injEq, true_and] at this
        exact this
      rw [hm]
      simp only [Bool.false_eq_true, if_false]
      by_cases hnm : nm.getLsbD (c.idx hash shift) = true
      · rw [if_pos ((and_bitOf_ne_zero hi).mpr hnm)]
        have hdm : dm.getLsbD (c.idx hash shift) = false := by
          have := hf.1 (c.idx hash shift)
          rwa [hnm, Bool.true_and] at this
        obtain ⟨ch, hch, hfc, hbig⟩ := form_child hf hnm
        obtain ⟨x, hx, hx1, hx2, hx3, _⟩ := hr.child hch
        rw [doSub_child hf hnm hch, bind_ok (liftO_eq hx1), bind_assoc']
        refine out_bind (out_mono (doSub_out hE (List.mem_cons_of_mem _ hem) k d ch x.ptr hash (shift + c.B) s hfc h hx3) (fun _ _ h => h) fun _ _ => trivial) ?_
        rintro s1 r hp
        cases hpt : Champ.doSub c d ch k hash (shift + c.B) with
        | none => rw [hpt] at hp; cases r <;> exact hp.elim
        | some o =>
          rw [hpt] at hp
          cases r with
          | nothing => cases o with
            | nothing => exact hp
            | singleton => exact hp.elim
            | tree => exact hp.elim
          | single q j => cases o with
            | nothing => exact hp.elim
            | tree => exact hp.elim
            | singleton y =>
              obtain ⟨h1, hqO, cq, hcq, hy⟩ := hp
              show Out (((M.ret (SubRM.single (Loc.at q j) false)).bind _) s1) _ _
              rw [bind_ok (show M.ret (SubRM.single (Loc.at q j) false) s1 = .ok s1 _ from rfl)]
              simp only [Option.map_some, subChild]
              split
              · exact ⟨⟨hqO, cq, by rw [h1]; exact hcq, hy⟩, (fun hf => by cases hf), fun _ => ⟨h1, ⟨cl, hc⟩, by rcases shared_rc h hc hm with h | h; exacts [.inl h, .inr (.inl h)]⟩⟩
              · refine out_bind (out_mono (copyEl_out (by rw [h1]; exact hcq) hy) (fun _ _ h => h) fun _ _ => trivial) ?_
                rintro s2 y' ⟨hy', h2, _⟩
                rw [hy']
                have h2 := h2.trans h1
                refine out_bind (out_mono (copyInnerReplaceInline_out hE (by rw [h2]; exact h) (by rw [h2]; exact ha) hi hdm hnm y) (fun _ _ h => h) fun _ _ => trivial) ?_
                rintro s3 q' ⟨hb, hk⟩
                simp only [Bool.and_false, Bool.false_eq_true, if_false]
                rw [bind_ok (show M.ret () s3 = .ok s3 () from rfl)]
                refine out_bind (out_mono (BuiltV.ownedValues (e := e) hb (by simp)) (fun _ _ h => h) fun _ h => h.elim) ?_
                rintro s4 q'' ⟨rfl, hb, hk4⟩
                rw [h2] at hk
                exact ⟨_, true, Like.refl (mem_erase' fun z hz => (hf.2.2.2 z hz).1.shape), fun _ => rfl, (fun hf => by cases hf), fun _ => ⟨hb.ht0.done (ht := e) (fun _ => rfl) ht, hk.trans hk4⟩⟩
          | tree q => cases o with
            | nothing => exact hp.elim
            | singleton => exact hp.elim
            | tree N' =>
              obtain ⟨b', hi1, hk, hb⟩ := hp
              rw [hb hbig] at hi1
              show Out (((M.ret (SubRM.tree (T := T) q false)).bind _) s1) _ _
              rw [bind_ok (show M.ret (SubRM.tree (T := T) q false) s1 = .ok s1 _ from rfl)]
              simp only [Option.map_some, subChild]
              refine out_bind (Q := fun s' q' => Built E u s'.mem O (⟨p, .node (.inner nm dm vs cs), t, b⟩ :: L) q' nm dm vs (cs.set (cnt nm (c.idx hash shift)) N') (tokOf E e 0) e ∧
                Kept (sys E u) O (⟨p, .node (.inner nm dm vs cs), t, b⟩ :: L) s.mem s'.mem) ?_ ?_
              · refine out_guard (E' := fun s' => s'.mem = s1.mem) ?_ ?_
                · refine out_bind (copyInnerReplace_out hE (r := ⟨q, .node N', 0, true⟩) rfl hi1 ((ha.kept hk).mono fun _ h => List.mem_cons_of_mem _ h) (cnt_lt_popcount hnm)) ?_
                  rintro s2 q' ⟨hb, hk2⟩
                  refine out_mono (Built.owned (e := e) hb) ?_ (fun _ h => h.elim)
                  rintro s3 q'' ⟨rfl, hb, hk3⟩
                  exact ⟨hb.ht0, (hk.trans (Kept.tail hk2)).trans hk3⟩
                · intro s' hs'
                  exact out_mono (deleteDeep_uniq (r := ⟨q, .node N', 0, true⟩) rfl rfl (doSub_shape hfc hpt) (by rw [hs']; exact hi1)) (fun _ _ _ => trivial) (fun _ h => h)
              · rintro s2 q' ⟨hb, hk2⟩
                exact ⟨_, true, Like.refl (doSub_shape (k := k) hf (by rw [doSub_child hf hnm hch, hpt]; rfl)), fun _ => rfl, (fun hf => by cases hf), fun _ => ⟨hb.done (fun _ => rfl) ht, hk2⟩⟩
      · rw [if_neg (hbit (Bool.eq_false_iff.mpr hnm))]
        have hnm := Bool.eq_false_iff.mpr hnm
        by_cases hdm : dm.getLsbD (c.idx hash shift) = true
        · rw [if_pos ((and_bitOf_ne_zero hi).mpr hdm)]
          obtain ⟨x, hx⟩ := form_value hf hdm
          obtain ⟨sv, cv, rfl, hcv, _, hvels⟩ := hr.values (by have := cnt_lt_popcount hdm; omega)
          have hxe : cv.els[cnt dm (c.idx hash shift)]? = some (.live x) := by rw [hvels, List.getElem?_map, hx]; rfl
          rw [doSub_value hf hnm hdm hx, bind_ok (liftO_eq rfl), bind_ok (show M.ret false s = .ok s false from rfl), bind_ok (readEl_eq hcv hxe)]
          refine out_bind (out_mono (eqM_out x k) (fun _ _ h => h) fun _ _ => trivial) ?_
          rintro s1 b1 ⟨h1, hn1, rfl⟩
          split
          · split
            · refine out_bind (out_mono (copyInnerRemoveValue_out hE (by rw [h1]; exact h) (by rw [h1]; exact ha) hi hdm) (fun _ _ h => h) fun _ _ => trivial) ?_
              rintro s2 q ⟨hb, hk⟩
              refine out_bind (out_mono (BuiltV.ownedValuesSafe (e := e) hb) (fun _ _ h => h) fun _ h => h.elim) ?_
              rintro s3 q' ⟨rfl, hb, hk3⟩
              refine ⟨_, true, Like.refl (fun z hz => (hf.2.2.2 z hz).1.shape), fun _ => rfl, (fun hf => by cases hf), fun _ => ⟨hb.ht0.done (ht := e) (fun _ => rfl) ht, ?_⟩⟩
              rw [← h1]; exact hk.trans hk3
            · rename_i hnb
              split
              · rename_i h2
                obtain ⟨y, hy⟩ := other_lt (xs := vs) (by rw [hf.2.1, h2]) (cnt dm (c.idx hash shift))
                have hye : cv.els[if cnt dm (c.idx hash shift) = 0 then 1 else 0]? = some (.live y) := by rw [hvels, List.getElem?_map, hy]; rfl
                rw [hy]
                simp only [Option.map_some]
                split
                · exact ⟨⟨(by obtain ⟨_, _, _, _, hO⟩ := hr.vcell sv rfl; exact hO), cv, by rw [h1]; exact hcv, hye⟩, (fun hf => by cases hf), fun _ => ⟨h1, ⟨cl, hc⟩, by rcases shared_rc h hc hm with h | h; exacts [.inl h, .inr (.inl h)]⟩⟩
                · refine out_bind (out_mono (copyEl_out (by rw [h1]; exact hcv) hye) (fun _ _ h => h) fun _ _ => trivial) ?_
                  rintro s2 y' ⟨hy', h2', _⟩
                  rw [hy']
                  have h2' := h2'.trans h1
                  refine out_bind (out_mono (makeInner1_out hE (by rw [h2']; exact h) (dm &&& ~~~ bitOf c.W (c.idx hash shift)) (by have := popcount_andNot hi hdm; omega) y) (fun _ _ h => h) fun _ _ => trivial) ?_
                  rintro s3 q ⟨hb, hk⟩
                  rw [bind_ok (show M.ret () s3 = .ok s3 () from rfl)]
                  refine out_bind (out_mono (BuiltV.ownedValues (e := e) hb (by simp)) (fun _ _ h => h) fun _ h => h.elim) ?_
                  rintro s4 q' ⟨rfl, hb, hk4⟩
                  rw [h2'] at hk
                  exact ⟨_, true, Like.refl (fun z hz => by cases hz), fun _ => rfl, (fun hf => by cases hf), fun _ => ⟨hb.ht0.done (ht := e) (fun _ => rfl) ht, hk.trans hk4⟩⟩
              · rename_i h2
                rw [bind_ok (show M.ret () s1 = .ok s1 () from rfl)]
                refine out_bind (out_mono (empty_out (List.mem_cons_of_mem _ hem) (by rw [h1]; exact h)) (fun _ _ h => h) fun _ h => h.elim) ?_
                rintro s2 q ⟨rfl, hi2, hk⟩
                rw [h1] at hk
                refine ⟨_, false, Like.refl (fun z hz => by cases hz), fun hb => ?_, (fun hf => by cases hf), fun _ => ⟨empty_tok hi2, hk⟩⟩
                rcases hb with hb | hb
                · exact absurd (.inl hb) hnb
                · exact absurd (.inr (by omega)) hnb
          · exact h1
        · rw [if_neg (hbit (Bool.eq_false_iff.mpr hdm))]
          rw [doSub_empty hnm (Bool.eq_false_iff.mpr hdm)]
          exact rfl

end ChampHeap
