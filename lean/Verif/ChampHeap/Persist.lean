import Verif.ChampHeap.Value

/-!
# The operations that copy: add, update, update_if_exists, sub

They give what the operations on values give, leave all other nodes as they were, keep the counts exact, and when something
throws they release all they had allocated.
-/

namespace ChampHeap
open Mm Champ

variable {K T : Type} {c : Cfg K T} {E : Env (Dat c.W) T} {u : Toks E.gc} {O : List Nat} {L : List (Ref (Val c.W T))} {s : St (Dat c.W) T} {p : Nat}

theorem tick_user : Out (tick (D := Dat c.W) (T := T) .user s) (fun s' _ => s'.mem = s.mem ∧ (NoCopyFault s → NoCopyFault s')) (fun s' => s'.mem = s.mem) :=
  tick_out' (Q := fun m => m = s.mem) rfl

theorem eqM_out (x : T) (k : K) : Out (eqM c x k s) (fun s' b => s'.mem = s.mem ∧ (NoCopyFault s → NoCopyFault s') ∧ b = c.eqv (c.key x) k) (fun s' => s'.mem = s.mem) :=
  out_bind tick_user fun _ _ h => ⟨h.1, h.2, rfl⟩

theorem hashM_out (x : T) : Out (hashM c x s) (fun s' b => s'.mem = s.mem ∧ (NoCopyFault s → NoCopyFault s') ∧ b = c.hash (c.key x)) (fun s' => s'.mem = s.mem) :=
  out_bind tick_user fun _ _ h => ⟨h.1, h.2, rfl⟩

theorem make_out (a : Act K T) (o : Option T) : Out (a.make (w := c.W) o s) (fun s' v => s'.mem = s.mem ∧ (NoCopyFault s → NoCopyFault s') ∧ v = a.g o) (fun s' => s'.mem = s.mem) := by
  unfold Act.make
  split
  · exact out_bind tick_user fun _ _ h => ⟨h.1, h.2, rfl⟩
  · exact ⟨rfl, fun h => h, rfl⟩

theorem scan_out {k : K} {cl : Cell (Dat c.W) T} : ∀ (ys pre : List T) (i n : Nat) (s : St (Dat c.W) T), s.mem p = some cl → cl.els = (pre ++ ys).map .live → i = pre.length → n = ys.length →
    Out (scan c k p i n s) (fun s' o => s'.mem = s.mem ∧ (NoCopyFault s → NoCopyFault s') ∧ o = (ys.findIdx? fun x => c.eqv (c.key x) k).map (· + i)) (fun s' => s'.mem = s.mem)
  | [], _, i, n, s, _, _, _, hn => by
    subst hn
    exact ⟨rfl, fun h => h, rfl⟩
  | y :: ys, pre, i, n, s, hc, he, hi, hn => by
    subst hn
    rw [List.length_cons, scan]
    rw [bind_ok (readEl_eq (v := y) hc (by rw [he, hi]; simp))]
    refine out_bind (eqM_out y k) ?_
    rintro s1 b ⟨h1, hn1, rfl⟩
    cases hb : c.eqv (c.key y) k with
    | true => exact ⟨h1, hn1, by rw [List.findIdx?_cons, hb]; simp⟩
    | false =>
      refine out_mono (scan_out ys (pre ++ [y]) (i + 1) ys.length s1 (by rw [h1]; exact hc) (by rw [he]; simp) (by simp [hi]) rfl) ?_ (fun s' h => h.trans h1)
      rintro s2 o ⟨h2, hn2, rfl⟩
      refine ⟨h2.trans h1, fun h => hn2 (hn1 h), ?_⟩
      rw [List.findIdx?_cons, hb]
      simp only [Bool.false_eq_true, if_false, Option.map_map]
      congr 1
      funext j
      simp only [Function.comp]
      omega

theorem scan_all {k : K} {cl : Cell (Dat c.W) T} {xs : List T} (hc : s.mem p = some cl) (he : cl.els = xs.map .live) :
    Out (scan c k p 0 xs.length s) (fun s' o => s'.mem = s.mem ∧ (NoCopyFault s → NoCopyFault s') ∧ o = xs.findIdx? fun x => c.eqv (c.key x) k) (fun s' => s'.mem = s.mem) := by
  refine out_mono (scan_out xs [] 0 xs.length s hc he rfl rfl) ?_ fun _ h => h
  rintro s' o ⟨h1, h2, rfl⟩
  exact ⟨h1, h2, by simp⟩

theorem BuiltV.ht0 {w : Nat} {E : Env (Dat w) T} {u : Toks E.gc} {m : Mem (Dat w) T} {L : List (Ref (Val w T))} {dst : Nat} {nm dm : BitVec w} {xs : List T} {Ns : List (Node w T)} {cv ct t : Nat}
    (h : BuiltV E u m O L dst nm dm xs Ns cv ct 0) : BuiltV E u m O L dst nm dm xs Ns cv ct t := by
  obtain ⟨vo, Lc, h1, h2, h3, h4, h5, h6, h7, h8⟩ := h
  exact ⟨vo, Lc, h1, h2, h3, h4, h5, h6, h7, fun x hx => .inl ((h8 x hx).elim id id)⟩

theorem Built.ht0 {w : Nat} {E : Env (Dat w) T} {u : Toks E.gc} {m : Mem (Dat w) T} {L : List (Ref (Val w T))} {dst : Nat} {nm dm : BitVec w} {xs : List T} {Ns : List (Node w T)} {ct t : Nat}
    (h : Built E u m O L dst nm dm xs Ns ct 0) : Built E u m O L dst nm dm xs Ns ct t := by
  obtain ⟨vo, cs, Lo, h1, h2, h3, h4, h5⟩ := h
  exact ⟨vo, cs, Lo, h1, h2, h3, h4, fun x hx => .inl ((h5 x hx).elim id id)⟩

/-- the token `make_merged` gives -/
def tokIf (E : Env (Dat c.W) T) : Option Nat → Nat
  | some e => tokOf E e 0
  | none => 0

theorem makeMerged_out (hE : E.Fresh) (e : Option Nat) (v1 v2 : T) (h1 h2 : BitVec 64) : ∀ (d shift : Nat) (O : List Nat) (L : List (Ref (Val c.W T))) (s : St (Dat c.W) T), Inv (sys E u) s.mem O L →
    Out (makeMerged c E e d shift v1 h1 v2 h2 s)
      (fun s' q => Inv (sys E u) s'.mem O (⟨q, .node (Champ.makeMerged c d shift v1 h1 v2 h2), tokIf E e, true⟩ :: L) ∧ Kept (sys E u) O L s.mem s'.mem)
      (fun s' => Gone E u O L s.mem s'.mem)
  | 0, shift, O, L, s, h => by
    rw [makeMerged, Champ.makeMerged]
    refine out_bind (out_mono (makeCollision_out hE h v1 v2) (fun _ _ h => h) ?_) ?_
    · intro s' h'
      exact ⟨by rw [h']; exact h, .of_eq h'⟩
    · rintro s1 q ⟨hb, hk⟩
      cases e with
      | none => exact ⟨hb.close (fun hl => absurd hl u.live0), hk⟩
      | some e =>
        refine out_mono (BuiltC.owned (e := e) hb) ?_ (fun _ h => h.elim)
        rintro s2 r ⟨rfl, hb2, hk2⟩
        exact ⟨hb2.close fun _ => rfl, hk.trans hk2⟩
  | d + 1, shift, O, L, s, h => by
    rw [makeMerged, Champ.makeMerged]
    by_cases hm : c.masked h1 shift = c.masked h2 shift
    · rw [if_pos hm, if_pos hm]
      refine out_bind (makeMerged_out hE e v1 v2 h1 h2 d (shift + c.B) O L s h) ?_
      rintro s1 q ⟨hi1, hk1⟩
      refine out_guard (E' := fun s' => s'.mem = s1.mem) ?_ ?_
      · refine out_bind (makeInnerChild_out hE (r := ⟨q, _, tokIf E e, true⟩) rfl hi1 (idx_lt c h1 shift)) ?_
        rintro s2 dst ⟨hb, hk⟩
        have hk2 : Kept (sys E u) O L s.mem s2.mem := hk1.trans (hk.mono (fun _ h => List.mem_cons_of_mem _ h) fun _ h => h)
        cases e with
        | none => exact ⟨hb.close (fun hl => absurd hl u.live0) (fun _ => rfl), hk2⟩
        | some e =>
          refine out_mono (Built.owned (e := e) hb) ?_ (fun _ h => h.elim)
          rintro s3 r ⟨rfl, hb2, hk3⟩
          exact ⟨hb2.close (fun _ => rfl) (fun _ => rfl), hk2.trans hk3⟩
      · intro s' hs'
        refine out_mono (deleteDeep_uniq (r := ⟨q, _, tokIf E e, true⟩) rfl rfl (shape_makeMerged v1 v2 h1 h2 d (shift + c.B)) (by rw [hs']; exact hi1)) ?_ (fun _ h => h)
        rintro s2 _ hg
        exact ⟨hg.1, hk1.trans (by rw [← hs']; exact hg.2)⟩
    · rw [if_neg hm, if_neg hm]
      have hne : c.idx h1 shift ≠ c.idx h2 shift := fun he => hm ((masked_eq_iff c h1 h2 shift).mpr he)
      refine out_bind (out_mono (makeInner2_out hE h (idx_lt c h1 shift) (idx_lt c h2 shift) hne v1 v2) (fun _ _ h => h) ?_) ?_
      · intro s' h'
        exact ⟨by rw [h']; exact h, .of_eq h'⟩
      · rintro s1 q ⟨hb, hk⟩
        have hval : Champ.makeInner2 (c.idx h1 shift) v1 (c.idx h2 shift) v2 = (Node.inner 0#c.W (bitOf c.W (c.idx h1 shift) ||| bitOf c.W (c.idx h2 shift)) (if c.idx h1 shift < c.idx h2 shift then [v1, v2] else [v2, v1]) [] : c.N) := by
          rfl
        rw [show (c.masked h1 shift >>> shift).toNat = c.idx h1 shift from rfl, show (c.masked h2 shift >>> shift).toNat = c.idx h2 shift from rfl, hval]
        cases e with
        | none => exact ⟨hb.close (.inl rfl) (fun hl => absurd hl u.live0) (fun _ => rfl), hk⟩
        | some e =>
          refine out_mono (BuiltV.ownedValues (e := e) hb (by split <;> exact List.cons_ne_nil _ _)) ?_ (fun _ h => h.elim)
          rintro s2 r ⟨rfl, hb2, hk2⟩
          exact ⟨hb2.ht0.close (.inr rfl) (fun _ => rfl) (fun _ => rfl), hk.trans hk2⟩

/-! ### add, update, update_if_exists -/

/-- the outcome of `doPut`, and what it should be -/
def PutR (E : Env (Dat c.W) T) (u : Toks E.gc) (O : List Nat) (L : List (Ref (Val c.W T))) (m m' : Mem (Dat c.W) T) : Option (Nat × Bool) → Option (Option (c.N × Bool)) → Prop
  | none, some none => m' = m
  | some (q, ad), some (some (N, ad')) => ad = ad' ∧ Inv (sys E u) m' O (⟨q, .node N, 0, true⟩ :: L)
  | _, _ => False

theorem gone_of_eq {m m' : Mem (Dat c.W) T} (h : Inv (sys E u) m O L) (he : m' = m) : Gone E u O L m m' := ⟨by rw [he]; exact h, .of_eq he⟩

theorem Gone.trans {m m' m'' : Mem (Dat c.W) T} (hk : Kept (sys E u) O L m m') (h : Gone E u O L m' m'') : Gone E u O L m m'' := ⟨h.1, hk.trans h.2⟩

theorem Kept.tail {m m' : Mem (Dat c.W) T} {r : Ref (Val c.W T)} (h : Kept (sys E u) O (r :: L) m m') : Kept (sys E u) O L m m' :=
  h.mono (fun _ h => List.mem_cons_of_mem _ h) fun _ h => h

/-- the child at an index -/
theorem Read.child {nm dm : BitVec c.W} {xs : List T} {Ns : List c.N} {cl : Cell (Dat c.W) T} {vo : Option Nat} {cs : List Nat} {Lc : List (Ref (Val c.W T))} {m : Mem (Dat c.W) T}
    (hr : Read E u m O L p nm dm xs Ns cl vo cs Lc) {j : Nat} {ch : c.N} (hch : Ns[j]? = some ch) :
    ∃ x ∈ Lc, cs[j]? = some x.ptr ∧ x.val = .node ch ∧ At (sys E u) m L x.ptr (.node ch) ∧ Held (sys E u) m L x.ptr := by
  have hlt : j < Lc.length := by
    rw [hr.llen, ← hr.nlen]
    exact (List.getElem?_eq_some_iff.mp hch).1
  have hv : Lc[j].val = .node ch := by
    have := congrArg (fun l => l[j]?) hr.val
    simp only [List.getElem?_map, hch, List.getElem?_eq_getElem hlt, Option.map_some, Option.some.injEq] at this
    exact this
  have hk := (hr.kids _ (List.getElem_mem hlt)).2.2
  refine ⟨Lc[j], List.getElem_mem hlt, ?_, hv, ?_, hk.2⟩
  · rw [← hr.ptr, List.getElem?_map, List.getElem?_eq_getElem hlt]; rfl
  · rw [← hv]; exact hk.1

theorem doPut_out (hE : E.Fresh) (a : Act K T) : ∀ (d : Nat) (N : c.N) (p : Nat) (hash : BitVec 64) (shift : Nat) (s : St (Dat c.W) T), Form d N → Inv (sys E u) s.mem O L →
    At (sys E u) s.mem L p (.node N) → (NoCopyFault s ∨ collHit c a.k d N hash shift = false) →
    Out (doPut c E a d p hash shift s) (fun s' r => PutR E u O L s.mem s'.mem r (put c a.ex a.g a.k d N hash shift) ∧ Kept (sys E u) O L s.mem s'.mem) (fun s' => Gone E u O L s.mem s'.mem)
  | 0, .inner .., _, _, _, _, h, _, _, _ => h.elim
  | _ + 1, .collision _, _, _, _, _, h, _, _, _ => h.elim
  | 0, .collision vs, p, hash, shift, s, hf, h, ha, hn => by
    obtain ⟨cl, hc, hd, he, _⟩ := at_coll h ha
    rw [doPut, put]
    rw [bind_ok (collCount_eq hc hd)]
    refine out_bind (out_mono (scan_all hc he) (fun _ _ h => h) fun s' h' => gone_of_eq h h') ?_
    rintro s1 o ⟨h1, hn1, rfl⟩
    have hi1 : Inv (sys E u) s1.mem O L := by rw [h1]; exact h
    have ha1 : At (sys E u) s1.mem L p (.node (.collision vs)) := by rw [h1]; exact ha
    have hc1 : s1.mem p = some cl := by rw [h1]; exact hc
    cases hx : vs.findIdx? (fun x => c.eqv (c.key x) a.k) with
    | some pos =>
      obtain ⟨x, hx1, hx2, hx3, _⟩ := findIdx?_split hx
      have hnf : NoCopyFault s := by
        rcases hn with hn | hn
        · exact hn
        · rw [collHit, List.any_eq_false] at hn
          exact absurd hx2 (hn x (List.mem_of_getElem? hx1))
      simp only [hx1, Option.bind_eq_bind, Option.bind_some, copyCollisionReplace_eq hx3]
      rw [bind_ok (readEl_eq (v := x) hc1 (by rw [he, List.getElem?_map, hx1]; rfl))]
      refine out_bind (out_mono (make_out a (some x)) (fun _ _ h => h) fun s' h' => gone_of_eq h (h'.trans h1)) ?_
      rintro s2 v ⟨h2, hn2, rfl⟩
      refine out_bind (out_mono (copyCollisionReplace_out hE (hn2 (hn1 hnf)) (by rw [h2]; exact hi1) (by rw [h2]; exact ha1) hx3 _) (fun _ _ h => h)
        fun s' h' => gone_of_eq h (h'.trans (h2.trans h1))) ?_
      rintro s3 q ⟨hb, hk⟩
      refine ⟨⟨rfl, hb.close fun hl => absurd hl u.live0⟩, ?_⟩
      rw [← h1, ← h2]; exact hk
    | none =>
      simp only
      split
      · exact ⟨h1, .of_eq h1⟩
      · refine out_bind (out_mono (make_out a none) (fun _ _ h => h) fun s' h' => gone_of_eq h (h'.trans h1)) ?_
        rintro s2 v ⟨h2, hn2, rfl⟩
        refine out_bind (out_mono (copyCollisionInsert_out hE (by rw [h2]; exact hi1) (by rw [h2]; exact ha1) _) (fun _ _ h => h)
          fun s' h' => gone_of_eq h (h'.trans (h2.trans h1))) ?_
        rintro s3 q ⟨hb, hk⟩
        refine ⟨⟨rfl, hb.close fun hl => absurd hl u.live0⟩, ?_⟩
        rw [← h1, ← h2]; exact hk
  | d + 1, .inner nm dm vs cs, p, hash, shift, s, hf, h, ha, hn => by
    have hi := idx_lt c hash shift
    obtain ⟨cl, vo, cps, Lc, hr⟩ := read h ha
    rw [doPut]
    rw [bind_ok (getI_eq hr.cell hr.data)]
    simp only
    rw [rank_eq_cnt nm hi, rank_eq_cnt dm hi]
    by_cases hnm : nm.getLsbD (c.idx hash shift) = true
    · rw [if_pos ((and_bitOf_ne_zero hi).mpr hnm)]
      obtain ⟨ch, hch, hfc, _⟩ := form_child hf hnm
      obtain ⟨x, hx, hx1, hx2, hx3, _⟩ := hr.child hch
      rw [put_child hf hnm hch, bind_ok (liftO_eq hx1)]
      refine out_bind (doPut_out hE a d ch x.ptr hash (shift + c.B) s hfc h hx3 ?_) ?_
      · rcases hn with hn | hn
        · exact .inl hn
        · right
          rwa [collHit, if_pos hnm, hch] at hn
      · rintro s1 r ⟨hp, hk⟩
        cases hpt : put c a.ex a.g a.k d ch hash (shift + c.B) with
        | none => rw [hpt] at hp; cases r <;> exact hp.elim
        | some o =>
          rw [hpt] at hp
          cases r with
          | none => cases o with
            | none => exact ⟨hp, hk⟩
            | some o => exact hp.elim
          | some r => cases o with
            | none => exact hp.elim
            | some o =>
              obtain ⟨q, ad⟩ := r
              obtain ⟨N', ad'⟩ := o
              obtain ⟨rfl, hi1⟩ := hp
              simp only
              refine out_bind (Q := fun s' q' => Built E u s'.mem O L q' nm dm vs (cs.set (cnt nm (c.idx hash shift)) N') 0 0 ∧ Kept (sys E u) O L s.mem s'.mem) ?_ ?_
              · refine out_guard (E' := fun s' => s'.mem = s1.mem) ?_ ?_
                · refine out_mono (copyInnerReplace_out hE (r := ⟨q, .node N', 0, true⟩) rfl hi1 ((ha.kept hk).mono fun _ h => List.mem_cons_of_mem _ h) (cnt_lt_popcount hnm)) ?_ (fun _ h => h)
                  rintro s2 q' ⟨hb, hk2⟩
                  exact ⟨hb, hk.trans (Kept.tail hk2)⟩
                · intro s' hs'
                  refine out_mono (deleteDeep_uniq (r := ⟨q, .node N', 0, true⟩) rfl rfl (put_shape hfc hpt) (by rw [hs']; exact hi1)) ?_ (fun _ h => h)
                  rintro s2 _ hg
                  rw [hs'] at hg
                  exact hg.trans hk
              · rintro s2 q' ⟨hb, hk2⟩
                exact ⟨⟨rfl, hb.close (fun hl => absurd hl u.live0) fun _ => rfl⟩, hk2⟩
    · rw [if_neg (fun h => hnm ((and_bitOf_ne_zero hi).mp h))]
      have hnm := Bool.eq_false_iff.mpr hnm
      by_cases hdm : dm.getLsbD (c.idx hash shift) = true
      · rw [if_pos ((and_bitOf_ne_zero hi).mpr hdm)]
        obtain ⟨x, hx⟩ := form_value hf hdm
        obtain ⟨sv, cv, rfl, hcv, _, hels⟩ := hr.values (by have := cnt_lt_popcount hdm; omega)
        have hxe : cv.els[cnt dm (c.idx hash shift)]? = some (.live x) := by rw [hels, List.getElem?_map, hx]; rfl
        rw [put_value hf hnm hdm hx, bind_ok (liftO_eq rfl), bind_ok (readEl_eq hcv hxe)]
        refine out_bind (out_mono (eqM_out x a.k) (fun _ _ h => h) fun s' h' => gone_of_eq h h') ?_
        rintro s1 b ⟨h1, hn1, rfl⟩
        split
        · refine out_bind (out_mono (make_out a (some x)) (fun _ _ h => h) fun s' h' => gone_of_eq h (h'.trans h1)) ?_
          rintro s2 v ⟨h2, hn2, rfl⟩
          have h2 := h2.trans h1
          refine out_bind (out_mono (copyInnerReplaceValue_out hE (by rw [h2]; exact h) (by rw [h2]; exact ha) (cnt_lt_popcount hdm) _) (fun _ _ h => h)
            fun s' h' => gone_of_eq h (h'.trans h2)) ?_
          rintro s3 q ⟨hb, hk⟩
          refine ⟨⟨rfl, hb.close (.inl rfl) (fun hl => absurd hl u.live0) fun _ => rfl⟩, ?_⟩
          rw [← h2]; exact hk
        · split
          · exact ⟨h1, .of_eq h1⟩
          · refine out_bind (out_mono (make_out a none) (fun _ _ h => h) fun s' h' => gone_of_eq h (h'.trans h1)) ?_
            rintro s2 v ⟨h2, hn2, rfl⟩
            have h2 := h2.trans h1
            refine out_bind (out_mono (copyEl_out (by rw [h2]; exact hcv) hxe) (fun _ _ h => h) fun s' h' => gone_of_eq h (h'.1.trans h2)) ?_
            rintro s3 y ⟨hy, h3, _⟩
            rw [hy]
            have h3 := h3.trans h2
            refine out_bind (out_mono (hashM_out x) (fun _ _ h => h) fun s' h' => gone_of_eq h (h'.trans h3)) ?_
            rintro s4 h2' ⟨h4, _, rfl⟩
            have h4 := h4.trans h3
            refine out_bind (out_mono (makeMerged_out hE none (a.g none) x hash (c.hash (c.key x)) d (shift + c.B) O L s4 (by rw [h4]; exact h)) (fun _ _ h => h) ?_) ?_
            · intro s' hg
              rw [h4] at hg; exact hg
            · rintro s5 q ⟨hi5, hk5⟩
              rw [h4] at hk5
              refine out_bind (Q := fun s' q' => BuiltV E u s'.mem O L q' (nm ||| bitOf c.W (c.idx hash shift)) (dm &&& ~~~ bitOf c.W (c.idx hash shift))
                (vs.take (cnt dm (c.idx hash shift)) ++ vs.drop (cnt dm (c.idx hash shift) + 1))
                (cs.take (cnt nm (c.idx hash shift)) ++ Champ.makeMerged c d (shift + c.B) (a.g none) hash x (c.hash (c.key x)) :: cs.drop (cnt nm (c.idx hash shift))) 0 0 0 ∧
                Kept (sys E u) O L s.mem s'.mem) ?_ ?_
              · refine out_guard (E' := fun s' => s'.mem = s5.mem) ?_ ?_
                · refine out_mono (copyInnerReplaceMerged_out hE (r := ⟨q, .node _, 0, true⟩) rfl hi5 ((ha.kept hk5).mono fun _ h => List.mem_cons_of_mem _ h) hi hdm hnm) ?_ (fun _ h => h)
                  rintro s6 q' ⟨hb, hk6⟩
                  exact ⟨hb, hk5.trans (Kept.tail hk6)⟩
                · intro s' hs'
                  refine out_mono (deleteDeep_uniq (r := ⟨q, .node _, 0, true⟩) rfl rfl (shape_makeMerged _ _ _ _ d (shift + c.B)) (by rw [hs']; exact hi5)) ?_ (fun _ h => h)
                  rintro s6 _ hg
                  rw [hs'] at hg
                  exact hg.trans hk5
              · rintro s6 q' ⟨hb, hk6⟩
                exact ⟨⟨rfl, hb.close (.inl rfl) (fun hl => absurd hl u.live0) fun _ => rfl⟩, hk6⟩
      · rw [if_neg (fun h => hdm ((and_bitOf_ne_zero hi).mp h))]
        have hdm := Bool.eq_false_iff.mpr hdm
        rw [put_empty hf hnm hdm]
        split
        · exact ⟨rfl, .refl⟩
        · refine out_bind (out_mono (make_out a none) (fun _ _ h => h) fun s' h' => gone_of_eq h h') ?_
          rintro s1 v ⟨h1, _, rfl⟩
          refine out_bind (out_mono (copyInnerInsertValue_out hE (by rw [h1]; exact h) (by rw [h1]; exact ha) hi hdm _) (fun _ _ h => h) fun s' h' => gone_of_eq h (h'.trans h1)) ?_
          rintro s2 q ⟨hb, hk⟩
          refine ⟨⟨rfl, hb.close (.inl rfl) (fun hl => absurd hl u.live0) fun _ => rfl⟩, ?_⟩
          rw [← h1]; exact hk

/-! ### erase -/

/-- the outcome of `doSub`, and what it should be -/
def SubOk (E : Env (Dat c.W) T) (u : Toks E.gc) (O : List Nat) (L : List (Ref (Val c.W T))) (N : c.N) (m m' : Mem (Dat c.W) T) : SubR → Option (SubResult c.N T) → Prop
  | .nothing, some .nothing => m' = m
  | .single q i, some (.singleton x) => m' = m ∧ q ∉ O ∧ ∃ cl, m q = some cl ∧ cl.els[i]? = some (.live x)
  | .tree r, some (.tree N') => ∃ b, Inv (sys E u) m' O (⟨r, .node N', 0, b⟩ :: L) ∧ Kept (sys E u) O L m m' ∧ (Big N → b = true)
  | _, _ => False

theorem empty_out {em : Nat} (hem : (⟨em, .node emptyNode, 0, false⟩ : Ref (Val c.W T)) ∈ L) (h : Inv (sys E u) s.mem O L) :
    Out (empty c E em s) (fun s' r => r = em ∧ Inv (sys E u) s'.mem O (⟨em, .node emptyNode, 0, false⟩ :: L) ∧ Kept (sys E u) O L s.mem s'.mem) (fun _ => False) := by
  obtain ⟨ce, _, hce, _, _, _, _, hO⟩ := h.look hem
  have ha := h.at0 hem u.live0
  unfold empty
  rw [bind_ok (inc_eq hce)]
  exact ⟨rfl, h.dup1 hem hce (ha.unowned ce hce) rfl 0, Kept.incs h E.gc (by intro a ha; rw [List.mem_singleton] at ha; subst ha; exact hO)⟩

theorem other_lt {α : Type} {xs : List α} (h : 2 ≤ xs.length) (i : Nat) : ∃ y, xs[if i = 0 then 1 else 0]? = some y := by
  have : (if i = 0 then 1 else 0) < xs.length := by split <;> omega
  exact ⟨_, List.getElem?_eq_getElem this⟩

theorem doSub_out (hE : E.Fresh) {em : Nat} (hem : (⟨em, .node emptyNode, 0, false⟩ : Ref (Val c.W T)) ∈ L) (k : K) : ∀ (d : Nat) (N : c.N) (p : Nat) (hash : BitVec 64) (shift : Nat) (s : St (Dat c.W) T), Form d N → Inv (sys E u) s.mem O L →
    At (sys E u) s.mem L p (.node N) →
    Out (doSub c E em k d p hash shift s) (fun s' r => SubOk E u O L N s.mem s'.mem r (Champ.doSub c d N k hash shift)) (fun s' => Gone E u O L s.mem s'.mem)
  | 0, .inner .., _, _, _, _, h, _, _ => h.elim
  | _ + 1, .collision _, _, _, _, _, h, _, _ => h.elim
  | 0, .collision vs, p, hash, shift, s, hf, h, ha => by
    obtain ⟨cl, hc, hd, he, hO⟩ := at_coll h ha
    rw [doSub, Champ.doSub]
    rw [bind_ok (collCount_eq hc hd)]
    refine out_bind (out_mono (scan_all hc he) (fun _ _ h => h) fun s' h' => gone_of_eq h h') ?_
    rintro s1 o ⟨h1, _, rfl⟩
    cases hx : vs.findIdx? (fun x => c.eqv (c.key x) k) with
    | none => exact h1
    | some pos =>
      obtain ⟨x, hx1, hx2, hx3, _⟩ := findIdx?_split hx
      simp only [Option.bind_eq_bind, copyCollisionRemove_eq hx3]
      split
      · refine out_bind (out_mono (copyCollisionRemove_out hE (by rw [h1]; exact h) (by rw [h1]; exact ha) hx3) (fun _ _ h => h) fun s' h' => gone_of_eq h (h'.trans h1)) ?_
        rintro s2 q ⟨hb, hk⟩
        rw [h1] at hk
        exact ⟨true, hb.close (fun hl => absurd hl u.live0), hk, fun _ => rfl⟩
      · obtain ⟨y, hy⟩ := other_lt (show 2 ≤ vs.length from hf) pos
        rw [hy]
        exact ⟨h1, hO, cl, hc, by rw [he, List.getElem?_map, hy]; rfl⟩
  | d + 1, .inner nm dm vs cs, p, hash, shift, s, hf, h, ha => by
    have hi := idx_lt c hash shift
    obtain ⟨cl, vo, cps, Lc, hr⟩ := read h ha
    rw [doSub]
    rw [bind_ok (getI_eq hr.cell hr.data)]
    simp only
    rw [rank_eq_cnt nm hi, rank_eq_cnt dm hi]
    by_cases hnm : nm.getLsbD (c.idx hash shift) = true
    · rw [if_pos ((and_bitOf_ne_zero hi).mpr hnm)]
      have hdm : dm.getLsbD (c.idx hash shift) = false := by
        have := hf.1 (c.idx hash shift)
        rwa [hnm, Bool.true_and] at this
      obtain ⟨ch, hch, hfc, hbig⟩ := form_child hf hnm
      obtain ⟨x, hx, hx1, hx2, hx3, _⟩ := hr.child hch
      rw [doSub_child hf hnm hch, bind_ok (liftO_eq hx1)]
      refine out_bind (doSub_out hE hem k d ch x.ptr hash (shift + c.B) s hfc h hx3) ?_
      rintro s1 r hp
      cases hpt : Champ.doSub c d ch k hash (shift + c.B) with
      | none => rw [hpt] at hp; cases r <;> exact hp.elim
      | some o =>
        rw [hpt] at hp
        cases r with
        | nothing => cases o with
          | nothing => exact hp
          | singleton => exact hp.elim
          | tree => exact hp.elim
        | single q j => cases o with
          | nothing => exact hp.elim
          | tree => exact hp.elim
          | singleton y =>
            obtain ⟨h1, hqO, cq, hcq, hy⟩ := hp
            simp only [Option.map_some, subChild]
            split
            · exact ⟨h1, hqO, cq, hcq, hy⟩
            · refine out_bind (out_mono (copyEl_out (by rw [h1]; exact hcq) hy) (fun _ _ h => h) fun s' h' => gone_of_eq h (h'.1.trans h1)) ?_
              rintro s2 y' ⟨hy', h2, _⟩
              rw [hy']
              have h2 := h2.trans h1
              refine out_bind (out_mono (copyInnerReplaceInline_out hE (by rw [h2]; exact h) (by rw [h2]; exact ha) hi hdm hnm y) (fun _ _ h => h) fun s' h' => gone_of_eq h (h'.trans h2)) ?_
              rintro s3 q' ⟨hb, hk⟩
              rw [h2] at hk
              exact ⟨true, hb.close (.inl rfl) (fun hl => absurd hl u.live0) (fun _ => rfl), hk, fun _ => rfl⟩
        | tree q => cases o with
          | nothing => exact hp.elim
          | singleton => exact hp.elim
          | tree N' =>
            obtain ⟨b, hi1, hk, hb⟩ := hp
            rw [hb hbig] at hi1
            simp only
            refine out_bind (Q := fun s' q' => Built E u s'.mem O L q' nm dm vs (cs.set (cnt nm (c.idx hash shift)) N') 0 0 ∧ Kept (sys E u) O L s.mem s'.mem) ?_ ?_
            · refine out_guard (E' := fun s' => s'.mem = s1.mem) ?_ ?_
              · refine out_mono (copyInnerReplace_out hE (r := ⟨q, .node N', 0, true⟩) rfl hi1 ((ha.kept hk).mono fun _ h => List.mem_cons_of_mem _ h) (cnt_lt_popcount hnm)) ?_ (fun _ h => h)
                rintro s2 q' ⟨hb, hk2⟩
                exact ⟨hb, hk.trans (Kept.tail hk2)⟩
              · intro s' hs'
                refine out_mono (deleteDeep_uniq (r := ⟨q, .node N', 0, true⟩) rfl rfl (doSub_shape hfc hpt) (by rw [hs']; exact hi1)) ?_ (fun _ h => h)
                rintro s2 _ hg
                rw [hs'] at hg
                exact hg.trans hk
            · rintro s2 q' ⟨hb, hk2⟩
              exact ⟨true, hb.close (fun hl => absurd hl u.live0) (fun _ => rfl), hk2, fun _ => rfl⟩
    · rw [if_neg (fun h => hnm ((and_bitOf_ne_zero hi).mp h))]
      have hnm := Bool.eq_false_iff.mpr hnm
      by_cases hdm : dm.getLsbD (c.idx hash shift) = true
      · rw [if_pos ((and_bitOf_ne_zero hi).mpr hdm)]
        obtain ⟨x, hx⟩ := form_value hf hdm
        obtain ⟨sv, cv, rfl, hcv, _, hels⟩ := hr.values (by have := cnt_lt_popcount hdm; omega)
        have hxe : cv.els[cnt dm (c.idx hash shift)]? = some (.live x) := by rw [hels, List.getElem?_map, hx]; rfl
        rw [doSub_value hf hnm hdm hx, bind_ok (liftO_eq rfl), bind_ok (readEl_eq hcv hxe)]
        refine out_bind (out_mono (eqM_out x k) (fun _ _ h => h) fun s' h' => gone_of_eq h h') ?_
        rintro s1 b ⟨h1, hn1, rfl⟩
        split
        · split
          · refine out_bind (out_mono (copyInnerRemoveValue_out hE (by rw [h1]; exact h) (by rw [h1]; exact ha) hi hdm) (fun _ _ h => h) fun s' h' => gone_of_eq h (h'.trans h1)) ?_
            rintro s2 q ⟨hb, hk⟩
            rw [h1] at hk
            exact ⟨true, hb.close (.inl rfl) (fun hl => absurd hl u.live0) (fun _ => rfl), hk, fun _ => rfl⟩
          · rename_i hbig
            split
            · rename_i h2
              obtain ⟨y, hy⟩ := other_lt (xs := vs) (by rw [hf.2.1, h2]) (cnt dm (c.idx hash shift))
              have hye : cv.els[if cnt dm (c.idx hash shift) = 0 then 1 else 0]? = some (.live y) := by rw [hels, List.getElem?_map, hy]; rfl
              rw [hy]
              simp only [Option.map_some]
              split
              · exact ⟨h1, (by obtain ⟨_, _, _, _, hO⟩ := hr.vcell sv rfl; exact hO), cv, hcv, hye⟩
              · refine out_bind (out_mono (copyEl_out (by rw [h1]; exact hcv) hye) (fun _ _ h => h) fun s' h' => gone_of_eq h (h'.1.trans h1)) ?_
                rintro s2 y' ⟨hy', h2', _⟩
                rw [hy']
                have h2' := h2'.trans h1
                refine out_bind (out_mono (makeInner1_out hE (by rw [h2']; exact h) (dm &&& ~~~ bitOf c.W (c.idx hash shift)) (by have := popcount_andNot hi hdm; omega) y) (fun _ _ h => h)
                  fun s' h' => gone_of_eq h (h'.trans h2')) ?_
                rintro s3 q ⟨hb, hk⟩
                rw [h2'] at hk
                exact ⟨true, hb.close (.inl rfl) (fun hl => absurd hl u.live0) (fun _ => rfl), hk, fun _ => rfl⟩
            · rename_i h2
              refine out_bind (out_mono (empty_out hem (by rw [h1]; exact h)) (fun _ _ h => h) fun _ h => h.elim) ?_
              rintro s2 q ⟨rfl, hi2, hk⟩
              rw [h1] at hk
              refine ⟨false, hi2, hk, fun hb => ?_⟩
              rcases hb with hb | hb
              · exact absurd (.inl hb) hbig
              · exact absurd (.inr (by omega)) hbig
        · exact h1
      · rw [if_neg (fun h => hdm ((and_bitOf_ne_zero hi).mp h))]
        rw [doSub_empty hnm (Bool.eq_false_iff.mpr hdm)]
        exact rfl

end ChampHeap
