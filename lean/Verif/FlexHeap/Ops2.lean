import Verif.FlexHeap.Ops
import Verif.Rrb.FlexRead

/-!
# The operations of flexible vectors on memory: updates, slices, reads
-/

namespace FlexHeap
open Mm Rrb VecHeap

variable {T : Type} {c : Cfg} {E : Env Dat T} {u : Toks E.gc} {O : List Nat} {L : List (Ref (Val T))}

section
variable {s : St Dat T} {m m' : Mem Dat T} {p q n i k e : Nat} {xs l pre tl : List T} {t t' : Tree T} {v : Vc} {N : Node T} {r : Ref (Val T)} {own : Option Nat} {cl : Cell Dat T} {f : T → T}

/-- the position of the root -/
def rootSh (v : Vc) (t : Tree T) (pre : List T) : RShp := subSh v.shift pre.length t.root

structure FSub (c : Cfg) (v : Vc) (t : Tree T) (pre : List T) (d : Nat) : Prop where
  pos : Pos.maybeRelaxedSub t.root v.shift pre.length = some ((rootSh v t pre).pos t.root)
  sub : SubPos ((rootSh v t pre).pos t.root)
  fits : RFits c (d + 1) (rootSh v t pre) t.root
  lev : levels c v.shift = d + 1
  shift : v.shift = c.BL + c.B * d
  wf : WF c (d + 1) t.root
  els : els (d + 1) t.root = pre

theorem FParts.sub (hp : FParts c v t pre tl) (hne : pre ≠ []) : ∃ d, FSub c v t pre d := by
  rcases hp.root with ⟨h, _⟩ | ⟨d, _, hs, hlev, hr⟩
  · exact absurd h hne
  · obtain ⟨q, h1, h2, _⟩ := maybeRelaxedSub_ok hr.wf (size := pre.length) (by rw [hr.els])
    have h3 := subSh_pos h1
    refine ⟨d, ?_, ?_, ?_, hlev, hs, hr.wf, hr.els⟩
    · unfold rootSh; rw [hs, h1, h3]
    · unfold rootSh; rw [hs, ← h3]; exact maybeRelaxedSub_sub h1
    · unfold rootSh; rw [hs]; exact subSh_fits hr.wf (by rw [hr.els])

theorem FSub.rel {d : Nat} (hs : FSub c v t pre d) (hd : Den (sys c E u) s.mem v.root (.node t.root)) : maybeRel v.root v.shift pre.length s = .ok s (rootSh v t pre) :=
  maybeRel_wf hd hs.wf

/-- the cases of `update` -/
theorem FParts.update (hi : Is v t) (hp : FParts c v t pre tl) (hlt : i < pre.length + tl.length) (h : Flex.update c t i f = some t') :
    (pre.length ≤ i ∧ Fits c 0 (.leafSub tl.length) t.tail ∧ (∃ x, tl[i - pre.length]? = some x ∧ t' = { t with tail := .leaf (tl.set (i - pre.length) (f x)) }) ∧ ∃ R, Rrb.updateV c f 0 ((Shp.leafSub tl.length).pos t.tail) (i - pre.length) = some R ∧ t' = { t with tail := R }) ∨
    (¬ pre.length ≤ i ∧ ∃ d R, FSub c v t pre d ∧ Rrb.updateV c f (d + 1) ((rootSh v t pre).pos t.root) i = some R ∧ t' = { t with root := R }) := by
  have hts : t.size - pre.length = tl.length := by rw [← hi.size]; exact hp.rest
  simp only [Flex.update, hp.off', hts, Option.bind_eq_bind, Option.bind_some] at h
  by_cases hle : pre.length ≤ i
  · left
    rw [if_pos hle] at h
    have hf : Fits c 0 (.leafSub tl.length) t.tail := by
      unfold Fits
      rw [hp.tail]
      exact ⟨rfl, rfl, by show 1 ≤ tl.length; omega, hp.le⟩
    have hpos : (Shp.leafSub tl.length).pos t.tail = .leafSub t.tail tl.length := rfl
    cases hR : Rrb.updateV c f 0 (.leafSub t.tail tl.length) (i - pre.length) with
    | none => rw [hR] at h; cases h
    | some R =>
      rw [hR] at h
      cases h
      obtain ⟨xs, off, x, h1, h2, h3, h4, h5, h6, rfl⟩ := hf.updLeaf (hpos ▸ hR)
      rw [hp.tail] at h1
      cases h1
      have : off = i - pre.length := by
        simp only [Shp.index, Shp.pos, Pos.index, Option.some.injEq] at h5
        rw [← h5, Nat.and_two_pow_sub_one_eq_mod, Nat.mod_eq_of_lt (by have := hp.le; omega)]
      subst this
      exact ⟨hle, hf, ⟨x, h6, rfl⟩, _, hR, rfl⟩
  · right
    rw [if_neg hle] at h
    obtain ⟨d, hs⟩ := hp.sub (by rintro rfl; simp at hle)
    rw [← hi.shift, hs.pos, hs.lev] at h
    simp only [Option.bind_some] at h
    cases hR : Rrb.updateV c f (d + 1) ((rootSh v t pre).pos t.root) i with
    | none => rw [hR] at h; cases h
    | some R =>
      rw [hR] at h
      cases h
      exact ⟨hle, d, R, hs, hR, by rw [hi.shift]⟩

/-- `update` -/
theorem fupdate_out (hB : 0 < c.B) (hE : E.Fresh) {user : Bool} (hi : Is v t) (hv : Flex.Inv c t l) (hlt : i < l.length) (hp : Flex.update c t i f = some t') (h : Inv (sys c E u) s.mem O (refs v t 0 ++ L)) :
    Out (Fc.update c E user f v i s) (Made c E u O (refs v t 0 ++ L) s.mem t' 0) (fun s' => Gone c E u O (refs v t 0 ++ L) s.mem s'.mem) := by
  obtain ⟨pre, tl, rfl, hpt⟩ := fparts hB hi hv
  obtain ⟨har, hat⟩ := refs_ok h (v := v) (t := t) (fun r hr => List.mem_append_left _ hr)
  unfold Fc.update
  rw [bind_ok (off_eq hpt hi har.den), hpt.rest]
  rcases hpt.update hi (by simpa using hlt) hp with ⟨h1, h2, _, R, h3, rfl⟩ | ⟨h1, d, R, h2, h4, rfl⟩
  · rw [if_pos h1]
    refine out_bind (updateV_out hB hE user f 0 O s v.tail _ _ _ R h2 h3 h hat) ?_
    rintro s1 q ⟨hi1, hk1⟩
    have hm : (⟨v.root, .node t.root, 0, false⟩ : Ref (Val T)) ∈ ⟨q, .node R, 0, false⟩ :: (refs v t 0 ++ L) := by simp [refs]
    have hi1 := VecHeap.retok hi1 (t' := 0) (fun _ => rfl) false (fun h => by cases h)
    refine out_bind (out_mono (inc_mem hi1 hm (unowned hi1 hm rfl) 0) (fun _ _ h => h) (fun _ h => h.elim)) ?_
    rintro s2 _ ⟨hi2, hk2⟩
    exact ⟨⟨hi.size, hi.shift⟩, hi2, hk1.trans (Kept.tail hk2)⟩
  · rw [if_neg h1, bind_ok (h2.rel har.den), h2.lev]
    refine out_bind (updateR_out hB hE user f (d + 1) O _ s v.root _ _ _ R h2.fits h4 h har) ?_
    rintro s1 q ⟨hi1, hk1⟩
    have hm : (⟨v.tail, .node t.tail, 0, false⟩ : Ref (Val T)) ∈ ⟨q, .node R, 0, false⟩ :: (refs v t 0 ++ L) := by simp [refs]
    have hi1 := VecHeap.retok hi1 (t' := 0) (fun _ => rfl) false (fun h => by cases h)
    refine out_bind (out_mono (inc_mem hi1 hm (unowned hi1 hm rfl) 0) (fun _ _ h => h) (fun _ h => h.elim)) ?_
    rintro s2 _ ⟨hi2, hk2⟩
    exact ⟨⟨hi.size, hi.shift⟩, hi2.permL (List.Perm.swap _ _ _), hk1.trans (Kept.tail hk2)⟩

/-- `get_mut`: afterwards any element may be put there -/
theorem fgetMut_out (hB : 0 < c.B) (hE : E.Fresh) (he : E.gc = true → u.live e) (hi : Is v t) (hv : Flex.Inv c t l) (hlt : i < l.length) (h : Inv (sys c E u) s.mem O (refs v t e ++ L)) :
    Out (Fc.getMut c E e v i s) (fun s' r => ∃ cl x, s'.mem r.2.1 = some cl ∧ cl.els[r.2.2]? = some (.live x) ∧
        ∀ f t', Flex.update c t i f = some t' → Is r.1 t' ∧ Inv (sys c E u) (upd s'.mem r.2.1 (some { cl with els := cl.els.set r.2.2 (.live (f x)) })) O (refs r.1 t' e ++ L) ∧
          Kept (sys c E u) O L s.mem (upd s'.mem r.2.1 (some { cl with els := cl.els.set r.2.2 (.live (f x)) })))
      (fun s' => Gone c E u O (refs v t e ++ L) s.mem s'.mem) := by
  have hv0 := hv
  obtain ⟨pre, tl, rfl, hpt⟩ := fparts hB hi hv
  have hden : Den (sys c E u) s.mem v.root (.node t.root) := h.den (r := ⟨v.root, .node t.root, e, false⟩) (by simp [refs])
  unfold Fc.getMut
  rw [bind_ok (off_eq hpt hi hden), hpt.rest]
  have hsw : (refs v t e ++ L).Perm (⟨v.tail, .node t.tail, e, false⟩ :: ⟨v.root, .node t.root, e, false⟩ :: L) := List.Perm.swap _ _ _
  have h' := h.permL hsw
  by_cases h1 : pre.length ≤ i
  · rw [if_pos h1]
    rw [hpt.tail] at h' hsw
    refine out_bind (out_mono (mutableTail_out hE he rfl hpt.le h') (fun _ _ h => h) (fun _ hg => Gone.permL hg hsw.symm)) ?_
    rintro s1 v' ⟨q, cl, rfl, ho, hk⟩
    have hx : i - pre.length < tl.length := by
      rw [List.length_append] at hlt
      omega
    have hle := hpt.le
    have hidx : (i - pre.length) &&& (2 ^ c.BL - 1) = i - pre.length := by
      rw [Nat.and_two_pow_sub_one_eq_mod, Nat.mod_eq_of_lt (by omega)]
    show ∃ cl x, _
    simp only [hidx]
    refine ⟨cl, tl[i - pre.length], ho.cell, by rw [ho.els.get hx, List.getElem?_eq_getElem hx]; rfl, ?_⟩
    intro f t' hp
    rcases hpt.update hi (by simpa using hlt) hp with ⟨_, _, ⟨x, h2, rfl⟩, _⟩ | ⟨h1', _⟩
    · rw [List.getElem?_eq_getElem hx] at h2
      cases h2
      exact ⟨⟨hi.size, hi.shift⟩, (ho.put (ho.els.set hx (f _)) (by simpa using ho.len)).permL (List.Perm.swap _ _ _), (Kept.tail hk).trans (Kept.tail (Kept.write ho.inv _))⟩
    · exact absurd h1 h1'
  · rw [if_neg h1]
    have key : ∀ g t', Flex.update c t i g = some t' → ∃ d R, FSub c v t pre d ∧ Rrb.updateV c g (d + 1) ((rootSh v t pre).pos t.root) i = some R ∧ t' = { t with root := R } := by
      intro g t' ht'
      rcases hpt.update hi (by simpa using hlt) ht' with ⟨h1', _⟩ | ⟨_, h2⟩
      · exact absurd h1' h1
      · exact h2
    have hall : ∃ d, FSub c v t pre d ∧ ∀ g, ∃ R, Rrb.updateV c g (d + 1) ((rootSh v t pre).pos t.root) i = some R := by
      obtain ⟨t1, ht1, _⟩ := Flex.update_spec hB hv0 hlt id
      obtain ⟨d, _, h2, _⟩ := key _ _ ht1
      refine ⟨d, h2, fun g => ?_⟩
      obtain ⟨t2, ht2, _⟩ := Flex.update_spec hB hv0 hlt g
      obtain ⟨d', R', h2', h4', _⟩ := key _ _ ht2
      have h2' := h2.lev.symm.trans h2'.lev
      have : d = d' := by omega
      subst this
      exact ⟨R', h4'⟩
    obtain ⟨d, h2, hall⟩ := hall
    rw [bind_ok (h2.rel hden), h2.lev]
    refine out_bind (getMutR_out hB hE he (d + 1) O _ s ⟨v.root, .node t.root, e, false⟩ _ _ i h2.fits hall rfl (fun _ => rfl) h) ?_
    rintro s1 ⟨g1, ℓ, j⟩ ⟨cg, xe, hcg, hxe, hg⟩
    refine ⟨cg, xe, hcg, hxe, ?_⟩
    intro f t' hp
    obtain ⟨d', R, h2', h4, rfl⟩ := key _ _ hp
    have h2' := h2.lev.symm.trans h2'.lev
    have : d = d' := by omega
    subst this
    obtain ⟨hi2, hk2⟩ := hg f R h4
    exact ⟨⟨hi.size, hi.shift⟩, hi2, Kept.tail hk2⟩

/-- the cases of `take` -/
theorem FParts.take (hi : Is v t) (hp : FParts c v t pre tl) (h : Flex.take c t n = some t') :
    (n = 0 ∧ t' = Vec.empty c) ∨ (n ≠ 0 ∧ v.size ≤ n ∧ t' = t) ∨
    (n ≠ 0 ∧ ¬ v.size ≤ n ∧ pre.length < n ∧ n - pre.length ≤ tl.length ∧ t' = ⟨n, t.shift, t.root, .leaf (tl.take (n - pre.length))⟩) ∨
    (n ≠ 0 ∧ ¬ v.size ≤ n ∧ ¬ pre.length < n ∧ ∃ d res, FSub c v t pre d ∧ n - 1 < (els (d + 1) t.root).length ∧
      Rrb.sliceRight c true (d + 1) ((rootSh v t pre).pos t.root) (n - 1) = some res ∧
      ((res.2.1 = none ∧ t' = ⟨n, c.BL, emptyRoot, res.2.2.2⟩) ∨ ∃ R, res.2.1 = some R ∧ t' = ⟨n, res.1, R, res.2.2.2⟩)) := by
  simp only [Flex.take, hp.off', Option.bind_eq_bind, Option.bind_some] at h
  rw [hi.size]
  by_cases h0 : n = 0
  · rw [if_pos h0] at h
    cases h
    exact .inl ⟨h0, rfl⟩
  rw [if_neg h0] at h
  by_cases h1 : t.size ≤ n
  · rw [if_pos h1] at h
    cases h
    exact .inr (.inl ⟨h0, h1, rfl⟩)
  rw [if_neg h1] at h
  have hsz := hp.size
  rw [hi.size] at hsz
  by_cases h2 : pre.length < n
  · have hle : n - pre.length ≤ tl.length := by omega
    have hle2 := hp.le
    rw [if_pos h2] at h
    simp only [Rrb.copyLeaf, hp.tail, Node.leaf?, Option.bind_eq_bind, Option.bind_some] at h
    rw [slice_zero hle, Option.bind_some, Vec.mkLeaf_ok (by simp; omega)] at h
    cases h
    exact .inr (.inr (.inl ⟨h0, h1, h2, hle, rfl⟩))
  · rw [if_neg h2] at h
    refine .inr (.inr (.inr ⟨h0, h1, h2, ?_⟩))
    obtain ⟨d, hs⟩ := hp.sub (by rintro rfl; simp at h2; omega)
    rw [← hi.shift, hs.pos, hs.lev] at h
    simp only [Option.bind_some] at h
    cases hR : Rrb.sliceRight c true (d + 1) ((rootSh v t pre).pos t.root) (n - 1) with
    | none => rw [hR] at h; cases h
    | some res =>
      rw [hR] at h
      refine ⟨d, res, hs, by rw [hs.els]; omega, hR, ?_⟩
      obtain ⟨a, b, cc, dd⟩ := res
      cases b with
      | none => cases h; exact .inl ⟨rfl, rfl⟩
      | some R => cases h; exact .inr ⟨R, rfl, rfl⟩

/-- `take` -/
theorem ftake_out (hB : 0 < c.B) (hE : E.Fresh) {er et : Nat} (hi : Is v t) (hv : Flex.Inv c t l) (hp : Flex.take c t n = some t') (hs : Statics er et (refs v t 0 ++ L)) (h : Inv (sys c E u) s.mem O (refs v t 0 ++ L)) :
    Out (Fc.take c E er et v n s) (Made c E u O (refs v t 0 ++ L) s.mem t' 0) (fun s' => Gone c E u O (refs v t 0 ++ L) s.mem s'.mem) := by
  obtain ⟨pre, tl, rfl, hpt⟩ := fparts hB hi hv
  obtain ⟨har, hat⟩ := refs_ok h (v := v) (t := t) (fun r hr => List.mem_append_left _ hr)
  unfold Fc.take
  rw [bind_ok (off_eq hpt hi har.den)]
  rcases hpt.take hi hp with ⟨h0, rfl⟩ | ⟨h0, h1, rfl⟩ | ⟨h0, h1, h2, h3, rfl⟩ | ⟨h0, h1, h2, d, res, h3, h5, h6, h7⟩
  · rw [if_pos h0]
    exact out_mono (empty_out h hs 0) (fun _ _ h => h.2) (fun _ h => h.elim)
  · rw [if_neg h0, if_pos h1]
    refine out_bind (out_mono (share_out h (v := v) (t := t') (fun r hr => List.mem_append_left _ hr) 0) (fun _ _ h => h) (fun _ h => h.elim)) ?_
    rintro s1 _ ⟨hi1, hk1⟩
    exact ⟨hi, hi1, hk1⟩
  · rw [if_neg h0, if_neg h1, if_pos h2]
    rw [hpt.tail] at hat
    have hle := hpt.le
    refine out_bind (copyLeaf_out (own := none) (t := 0) hE h hat (n := n - pre.length) h3 (by omega) (fun _ => rfl)) ?_
    rintro s1 q ⟨hi1, hk1⟩
    have hm : (⟨v.root, .node t.root, 0, false⟩ : Ref (Val T)) ∈ ⟨q, .node (.leaf (tl.take (n - pre.length))), 0, false⟩ :: (refs v t 0 ++ L) := by simp [refs]
    have hi1 := VecHeap.retok hi1 (t' := 0) (fun _ => rfl) false (fun h => by cases h)
    refine out_bind (out_mono (inc_mem hi1 hm (unowned hi1 hm rfl) 0) (fun _ _ h => h) (fun _ h => h.elim)) ?_
    rintro s2 _ ⟨hi2, hk2⟩
    exact ⟨⟨rfl, hi.shift⟩, hi2, hk1.trans (Kept.tail hk2)⟩
  · rw [if_neg h0, if_neg h1, if_neg h2, bind_ok (h3.rel har.den), h3.lev]
    refine out_bind (sliceNewR_out (own := none) (t := 0) hB hE (fun _ => rfl) (d + 1) true s v.root _ _ _ res h3.fits h5 h6 h har (fun h => by cases h)) ?_
    rintro s1 rr ⟨Lr, ⟨c1, c2, hor⟩, hi1, hk1⟩
    rcases hor with ⟨e1, e2, rfl⟩ | ⟨a, R, e1, e2, rfl⟩
    · rw [e1]
      rcases h7 with ⟨_, rfl⟩ | ⟨R, e3, _⟩
      · have hm := List.mem_append_right [(⟨rr.2.2.2, .node res.2.2.2, 0, false⟩ : Ref (Val T))] hs.1
        refine out_bind (out_mono (inc_mem hi1 hm (unowned hi1 hm rfl) 0) (fun _ _ h => h) (fun _ h => h.elim)) ?_
        rintro s2 _ ⟨hi2, hk2⟩
        exact ⟨⟨rfl, rfl⟩, hi2, hk1.trans (Kept.tail hk2)⟩
      · rw [e3] at e2; cases e2
    · rw [e1]
      rcases h7 with ⟨e3, _⟩ | ⟨R', e3, rfl⟩
      · rw [e3] at e2; cases e2
      · rw [e3] at e2
        cases e2
        exact ⟨⟨rfl, c1⟩, hi1, hk1⟩

/-- `take_mut` -/
theorem ftakeMut_out (hB : 0 < c.B) (hE : E.Fresh) (he : E.gc = true → u.live e) {er et : Nat} (hi : Is v t) (hv : Flex.Inv c t l) (hp : Flex.take c t n = some t') (hs : Statics er et L) (h : Inv (sys c E u) s.mem O (refs v t e ++ L)) (hN : NoTab s.fault) :
    Out (Fc.takeMut c E e er et v n s) (Made c E u O L s.mem t' e) (fun s' => Gone c E u O (refs v t e ++ L) s.mem s'.mem) := by
  have hv0 := hv
  obtain ⟨pre, tl, rfl, hpt⟩ := fparts hB hi hv
  have hden : Den (sys c E u) s.mem v.root (.node t.root) := h.den (r := ⟨v.root, .node t.root, e, false⟩) (by simp [refs])
  unfold Fc.takeMut
  rw [bind_ok (off_eq hpt hi hden)]
  have hsw : (refs v t e ++ L).Perm (⟨v.tail, .node t.tail, e, false⟩ :: ⟨v.root, .node t.root, e, false⟩ :: L) := List.Perm.swap _ _ _
  rcases hpt.take hi hp with ⟨h0, rfl⟩ | ⟨h0, h1, rfl⟩ | ⟨h0, h1, h2, h3, rfl⟩ | ⟨h0, h1, h2, d, res, h3, h5, h6, h7⟩
  · rw [if_pos h0]
    refine out_bind (out_mono (empty_out h ⟨List.mem_append_right _ hs.1, List.mem_append_right _ hs.2⟩ e) (fun _ _ h => h) (fun _ h => h.elim)) ?_
    rintro s1 v1 ⟨_, hi1, hiv, hk1⟩
    have hiv' : Inv (sys c E u) s1.mem O (refs v t e ++ (refs v1 (Vec.empty c) e ++ L)) := hiv.permL (List.perm_append_comm_assoc _ _ _)
    refine out_bind (out_mono (fdrop_out hB hi hv0 hiv') (fun _ _ h => h) (fun _ h => h.elim)) ?_
    intro s2 _ hg
    exact ⟨hi1, hg.1, (hk1.mono (fun _ h => List.mem_append_right _ h) (fun _ h => h)).trans (hg.2.mono (fun _ h => List.mem_append_right _ h) (fun _ h => h))⟩
  · rw [if_neg h0, if_pos h1]
    exact ⟨hi, h, .refl⟩
  · rw [if_neg h0, if_neg h1, if_pos h2]
    have h' := h.permL hsw
    rw [hpt.tail] at h' hsw
    obtain ⟨cl, _, hc, _⟩ := h'.look List.mem_cons_self
    have hc : s.mem v.tail = some cl := hc
    have hle := hpt.le
    rw [bind_ok (canMutate_eq hc), hpt.rest]
    by_cases hm : mutable E e cl = true
    · rw [if_pos hm]
      obtain ⟨hd, ⟨k, hx⟩, hlen, hop⟩ := open_leaf he h' rfl hc hm
      have ho : Opened c E u e O (⟨v.root, .node t.root, e, false⟩ :: L) tl s.mem v.tail cl := ⟨hc, hd, ⟨k, hx⟩, hlen, fun hg => mutable_rc hg hm, fun hg => mutable_tok hg hm, hop⟩
      rw [bind_ok (destroyN_eq ((tl.drop (n - pre.length)).map Slot.live) ((tl.take (n - pre.length)).map Slot.live) (List.replicate k .raw) (n - pre.length) (tl.length - (n - pre.length)) s cl hc
          (by rw [← List.map_append, List.take_append_drop]; exact hx) (by simp; omega) (by simp) (live_there _))]
      have hlen' : ((tl.take (n - pre.length)).map Slot.live ++ List.replicate (tl.length - (n - pre.length)) Slot.raw ++ List.replicate k Slot.raw).length = 2 ^ c.BL := by
        rw [← hlen, hx]
        simp
        omega
      refine ⟨⟨rfl, hi.shift⟩, (ho.put ⟨tl.length - (n - pre.length) + k, ?_⟩ hlen').permL (List.Perm.swap _ _ _), Kept.tail (Kept.write hop _)⟩
      simp only [List.append_assoc, List.replicate_append_replicate]
    · rw [if_neg hm]
      have hm := Bool.eq_false_iff.mpr hm
      have ha := at_of_shared h' List.mem_cons_self hc hm (fun _ => rfl)
      refine out_bind (out_mono (copyLeaf_out (own := some e) (t := e) hE h' ha (n := n - pre.length) h3 (by omega) (fun _ => rfl)) (fun _ _ h => h) (fun _ hg => Gone.permL hg hsw.symm)) ?_
      rintro s1 q ⟨hi1, hk1⟩
      refine out_bind (out_mono (decLeaf_out rfl rfl (hi1.permL (List.Perm.swap _ _ _))) (fun _ _ h => h) (fun _ h => h.elim)) ?_
      intro s2 _ hg
      exact ⟨⟨rfl, hi.shift⟩, (VecHeap.retok hg.1 (fun _ => rfl) false (fun h => by cases h)).permL (List.Perm.swap _ _ _), (Kept.tail (Kept.tail hk1)).trans (Kept.tail (Kept.tail hg.2))⟩
  · rw [if_neg h0, if_neg h1, if_neg h2, bind_ok (h3.rel hden), h3.lev]
    refine out_bind (sliceMutR_out hB hE he (d + 1) true O _ s ⟨v.root, .node t.root, e, false⟩ _ _ _ res h3.fits h5 h6 rfl (fun _ => rfl) h hN) ?_
    rintro s1 rr ⟨Lr, ⟨c1, c2, hor⟩, hi1, hk1⟩
    have hk1' := Kept.tail hk1
    rcases hor with ⟨e1, e2, rfl⟩ | ⟨a, R, e1, e2, rfl⟩
    · rw [e1]
      rcases h7 with ⟨_, rfl⟩ | ⟨R, e3, _⟩
      · have hm : (⟨er, .node emptyRoot, 0, false⟩ : Ref (Val T)) ∈ [(⟨rr.2.2.2, .node res.2.2.2, e, false⟩ : Ref (Val T))] ++ ⟨v.tail, .node t.tail, e, false⟩ :: L := List.mem_append_right _ (List.mem_cons_of_mem _ hs.1)
        refine out_bind (Q := fun s2 v' => v' = ⟨n, c.BL, er, rr.2.2.2⟩ ∧ Inv (sys c E u) s2.mem O (⟨er, .node emptyRoot, e, false⟩ :: ⟨rr.2.2.2, .node res.2.2.2, e, false⟩ :: ⟨v.tail, .node t.tail, e, false⟩ :: L) ∧
            Kept (sys c E u) O (⟨rr.2.2.2, .node res.2.2.2, e, false⟩ :: ⟨v.tail, .node t.tail, e, false⟩ :: L) s1.mem s2.mem) ?_ ?_
        · refine out_bind (out_mono (inc_mem hi1 hm (unowned hi1 hm rfl) e) (fun _ _ h => h) (fun _ h => h.elim)) ?_
          exact fun s2 _ h => ⟨rfl, h⟩
        · rintro s2 _ ⟨rfl, hi2, hk2⟩
          refine out_bind (out_mono (decLeaf_out (L := ⟨er, .node emptyRoot, e, false⟩ :: ⟨rr.2.2.2, .node res.2.2.2, e, false⟩ :: L) (r := ⟨v.tail, .node t.tail, e, false⟩) (by rw [hpt.tail]) hpt.rest.symm (hi2.permL (List.perm_middle (l₁ := [_, _])))) (fun _ _ h => h) (fun _ h => h.elim)) ?_
          · intro s3 _ hg
            exact ⟨⟨rfl, rfl⟩, hg.1, (hk1'.trans (Kept.tail (Kept.tail hk2))).trans (Kept.tail (Kept.tail hg.2))⟩
      · rw [e3] at e2; cases e2
    · rw [e1]
      rcases h7 with ⟨e3, _⟩ | ⟨R', e3, rfl⟩
      · rw [e3] at e2; cases e2
      · rw [e3] at e2
        cases e2
        refine out_bind (Q := fun s' v' => s' = s1 ∧ v' = ⟨n, rr.1, a, rr.2.2.2⟩) ⟨rfl, rfl⟩ ?_
        rintro _ _ ⟨rfl, rfl⟩
        refine out_bind (out_mono (decLeaf_out (L := [⟨a, .node R, e, false⟩, ⟨rr.2.2.2, .node res.2.2.2, e, false⟩] ++ L) (r := ⟨v.tail, .node t.tail, e, false⟩) (by rw [hpt.tail]) hpt.rest.symm (hi1.permL (List.perm_middle (l₁ := [_, _])))) (fun _ _ h => h) (fun _ h => h.elim)) ?_
        intro s3 _ hg
        exact ⟨⟨rfl, c1⟩, hg.1, hk1'.trans (Kept.tail (Kept.tail hg.2))⟩

/-- the cases of `drop` -/
theorem FParts.drop (hi : Is v t) (hp : FParts c v t pre tl) (h : Flex.drop c t n = some t') :
    (n = 0 ∧ t' = t) ∨ (n ≠ 0 ∧ v.size ≤ n ∧ t' = Vec.empty c) ∨
    (n ≠ 0 ∧ ¬ v.size ≤ n ∧ n = pre.length ∧ t' = ⟨t.size - n, c.BL, emptyRoot, t.tail⟩) ∨
    (n ≠ 0 ∧ ¬ v.size ≤ n ∧ n ≠ pre.length ∧ pre.length < n ∧ n - pre.length < tl.length ∧ t' = ⟨t.size - n, c.BL, emptyRoot, .leaf (tl.drop (n - pre.length))⟩) ∨
    (n ≠ 0 ∧ ¬ v.size ≤ n ∧ n ≠ pre.length ∧ ¬ pre.length < n ∧ ∃ d res, FSub c v t pre d ∧ n < (els (d + 1) t.root).length ∧
      Rrb.sliceLeft c true (d + 1) ((rootSh v t pre).pos t.root) n = some res ∧ t' = ⟨t.size - n, res.1, res.2, t.tail⟩) := by
  simp only [Flex.drop] at h
  rw [hi.size]
  by_cases h0 : n = 0
  · rw [if_pos h0] at h
    cases h
    exact .inl ⟨h0, rfl⟩
  rw [if_neg h0] at h
  by_cases h1 : t.size ≤ n
  · rw [if_pos h1] at h
    cases h
    exact .inr (.inl ⟨h0, h1, rfl⟩)
  rw [if_neg h1, hp.off'] at h
  simp only [Option.bind_eq_bind, Option.bind_some] at h
  have hsz := hp.size
  rw [hi.size] at hsz
  by_cases h2 : n = pre.length
  · rw [if_pos h2] at h
    cases h
    exact .inr (.inr (.inl ⟨h0, h1, h2, rfl⟩))
  rw [if_neg h2] at h
  by_cases h3 : pre.length < n
  · have hts : t.size - pre.length = tl.length := by omega
    have hle2 := hp.le
    rw [if_pos h3, hts] at h
    simp only [Rrb.copyLeafI, hp.tail, Node.leaf?, Option.bind_eq_bind, Option.bind_some] at h
    rw [slice_ok (by omega) (Nat.le_refl _), Option.bind_some, Vec.mkLeaf_ok (by simp; omega)] at h
    cases h
    exact .inr (.inr (.inr (.inl ⟨h0, h1, h2, h3, by omega, by rw [List.take_of_length_le (by simp)]⟩)))
  · rw [if_neg h3] at h
    refine .inr (.inr (.inr (.inr ⟨h0, h1, h2, h3, ?_⟩)))
    obtain ⟨d, hs⟩ := hp.sub (by rintro rfl; simp at h3; omega)
    rw [← hi.shift, hs.pos, hs.lev] at h
    simp only [Option.bind_some] at h
    cases hR : Rrb.sliceLeft c true (d + 1) ((rootSh v t pre).pos t.root) n with
    | none => rw [hR] at h; cases h
    | some res =>
      rw [hR] at h
      cases h
      exact ⟨d, res, hs, by rw [hs.els]; omega, hR, rfl⟩

theorem FSub.small {d : Nat} (hs : FSub c v t pre d) (h : v.shift < 32) : ∀ l', l' + 1 ≤ d + 1 → c.BL + c.B * l' < 32 := by
  intro l' hl
  have : c.B * l' ≤ c.B * d := Nat.mul_le_mul_left _ (by omega)
  have := hs.shift
  omega

/-- `drop` -/
theorem fdropN_out (hB : 0 < c.B) (hE : E.Fresh) {X : Elem T} {er et : Nat} (hi : Is v t) (hv : Flex.Inv c t l) (hp : Flex.drop c t n = some t') (hsm : Flex.Small t) (hs : Statics er et (refs v t 0 ++ L))
    (h : Inv (sys c E u) s.mem O (refs v t 0 ++ L)) :
    Out (Fc.dropN c E X er et v n s) (Made c E u O (refs v t 0 ++ L) s.mem t' 0) (fun s' => Gone c E u O (refs v t 0 ++ L) s.mem s'.mem) := by
  obtain ⟨pre, tl, rfl, hpt⟩ := fparts hB hi hv
  obtain ⟨har, hat⟩ := refs_ok h (v := v) (t := t) (fun r hr => List.mem_append_left _ hr)
  have hoff := off_eq hpt hi har.den
  unfold Fc.dropN
  rcases hpt.drop hi hp with ⟨h0, rfl⟩ | ⟨h0, h1, rfl⟩ | ⟨h0, h1, h2, rfl⟩ | ⟨h0, h1, h2, h3, h4, rfl⟩ | ⟨h0, h1, h2, h3, d, res, h4, h5, h6, rfl⟩
  · rw [if_pos h0]
    refine out_bind (out_mono (share_out h (v := v) (t := t') (fun r hr => List.mem_append_left _ hr) 0) (fun _ _ h => h) (fun _ h => h.elim)) ?_
    rintro s1 _ ⟨hi1, hk1⟩
    exact ⟨hi, hi1, hk1⟩
  · rw [if_neg h0, if_pos h1]
    exact out_mono (empty_out h hs 0) (fun _ _ h => h.2) (fun _ h => h.elim)
  · rw [if_neg h0, if_neg h1, bind_ok hoff, if_pos h2]
    refine out_bind (out_mono (inc_mem h hs.1 (unowned h hs.1 rfl) 0) (fun _ _ h => h) (fun _ h => h.elim)) ?_
    rintro s1 _ ⟨hi1, hk1⟩
    have hm : (⟨v.tail, .node t.tail, 0, false⟩ : Ref (Val T)) ∈ ⟨er, .node emptyRoot, 0, false⟩ :: (refs v t 0 ++ L) := by simp [refs]
    refine out_bind (out_mono (inc_mem hi1 hm (unowned hi1 hm rfl) 0) (fun _ _ h => h) (fun _ h => h.elim)) ?_
    rintro s2 _ ⟨hi2, hk2⟩
    exact ⟨⟨by rw [hi.size], rfl⟩, hi2.permL (List.Perm.swap _ _ _), hk1.trans (Kept.tail hk2)⟩
  · rw [if_neg h0, if_neg h1, bind_ok hoff, if_neg h2, if_pos h3, hpt.rest]
    rw [hpt.tail] at hat
    have hle := hpt.le
    refine out_bind (copyLeafI_out (own := none) (t := 0) hE h hat (i := n - pre.length) rfl hle (fun _ => rfl)) ?_
    rintro s1 q ⟨hi1, hk1⟩
    have hi1 := VecHeap.retok hi1 (t' := 0) (fun _ => rfl) false (fun h => by cases h)
    have hm : (⟨er, .node emptyRoot, 0, false⟩ : Ref (Val T)) ∈ ⟨q, .node (.leaf (tl.drop (n - pre.length))), 0, false⟩ :: (refs v t 0 ++ L) := List.mem_cons_of_mem _ hs.1
    refine out_bind (out_mono (inc_mem hi1 hm (unowned hi1 hm rfl) 0) (fun _ _ h => h) (fun _ h => h.elim)) ?_
    rintro s2 _ ⟨hi2, hk2⟩
    exact ⟨⟨by rw [hi.size], rfl⟩, hi2, hk1.trans (Kept.tail hk2)⟩
  · have hlen : (els (d + 1) t.root).length ≤ 2 ^ 32 := by
      have h7 := hsm.1
      have h8 := hpt.size
      rw [← hi.size] at h7
      rw [h4.els]
      omega
    rw [if_neg h0, if_neg h1, bind_ok hoff, if_neg h2, if_neg h3, bind_ok (h4.rel har.den), h4.lev]
    refine out_bind (sliceLeftNew_out (own := none) (t := 0) hB hE (fun _ => rfl) (d + 1) O true s v.root _ _ _ res h4.fits h4.sub hlen (h4.small (by rw [hi.shift]; exact hsm.2)) h5 h6 h har) ?_
    rintro s1 q ⟨q1, hi1, hk1⟩
    have hm : (⟨v.tail, .node t.tail, 0, false⟩ : Ref (Val T)) ∈ ⟨q.2, .node res.2, 0, false⟩ :: (refs v t 0 ++ L) := by simp [refs]
    refine out_bind (out_mono (inc_mem hi1 hm (unowned hi1 hm rfl) 0) (fun _ _ h => h) (fun _ h => h.elim)) ?_
    rintro s2 _ ⟨hi2, hk2⟩
    exact ⟨⟨by rw [hi.size], q1⟩, hi2.permL (List.Perm.swap _ _ _), hk1.trans (Kept.tail hk2)⟩

/-- `drop_mut`; if there is no memory the nodes may have been copied, the elements are as before -/
theorem fdropMut_out (hB : 0 < c.B) (hE : E.Fresh) (he : E.gc = true → u.live e) {X : Elem T} (hX : X.Ok) {er et : Nat} (hi : Is v t) (hv : Flex.Inv c t l) (hp : Flex.drop c t n = some t') (hsm : Flex.Small t)
    (hs : Statics er et L) (h : Inv (sys c E u) s.mem O (refs v t e ++ L)) :
    Out (Fc.dropMut c E X e er et v n s) (Made c E u O L s.mem t' e) (fun s' => Inv (sys c E u) s'.mem O (refs v t e ++ L) ∧ Kept (sys c E u) O L s.mem s'.mem) := by
  have hv0 := hv
  obtain ⟨pre, tl, rfl, hpt⟩ := fparts hB hi hv
  have hden : Den (sys c E u) s.mem v.root (.node t.root) := h.den (r := ⟨v.root, .node t.root, e, false⟩) (by simp [refs])
  have hsw : (refs v t e ++ L).Perm (⟨v.tail, .node t.tail, e, false⟩ :: ⟨v.root, .node t.root, e, false⟩ :: L) := List.Perm.swap _ _ _
  have hlen2 : pre.length + tl.length ≤ 2 ^ 32 := by
    have h7 := hsm.1
    have h8 := hpt.size
    rw [← hi.size] at h7
    omega
  have hinc : ∀ (s1 : St Dat T) (q : Nat) (N : Node T), Inv (sys c E u) s1.mem O (⟨q, .node N, e, false⟩ :: L) → Kept (sys c E u) O L s.mem s1.mem →
      Out (((inc E er).bind fun _ => M.ret (⟨v.size - n, c.BL, er, q⟩ : Vc)) s1) (Made c E u O L s.mem ⟨t.size - n, c.BL, emptyRoot, N⟩ e) (fun _ => False) := by
    intro s1 q N h1 hk1
    have hm : (⟨er, .node emptyRoot, 0, false⟩ : Ref (Val T)) ∈ ⟨q, .node N, e, false⟩ :: L := List.mem_cons_of_mem _ hs.1
    refine out_bind (out_mono (inc_mem h1 hm (unowned h1 hm rfl) e) (fun _ _ h => h) (fun _ h => h.elim)) ?_
    rintro s2 _ ⟨hi2, hk2⟩
    exact ⟨⟨by rw [hi.size], rfl⟩, hi2, hk1.trans (Kept.tail hk2)⟩
  unfold Fc.dropMut
  rw [bind_ok (off_eq hpt hi hden)]
  rcases hpt.drop hi hp with ⟨h0, rfl⟩ | ⟨h0, h1, rfl⟩ | ⟨h0, h1, h2, rfl⟩ | ⟨h0, h1, h2, h3, h4, rfl⟩ | ⟨h0, h1, h2, h3, d, res, h4, h5, h6, rfl⟩
  · rw [if_pos h0]
    exact ⟨hi, h, .refl⟩
  · rw [if_neg h0, if_pos h1]
    refine out_bind (out_mono (empty_out h ⟨List.mem_append_right _ hs.1, List.mem_append_right _ hs.2⟩ e) (fun _ _ h => h) (fun _ h => h.elim)) ?_
    rintro s1 v1 ⟨_, hi1, hiv, hk1⟩
    have hiv' : Inv (sys c E u) s1.mem O (refs v t e ++ (refs v1 (Vec.empty c) e ++ L)) := hiv.permL (List.perm_append_comm_assoc _ _ _)
    refine out_bind (out_mono (fdrop_out hB hi hv0 hiv') (fun _ _ h => h) (fun _ h => h.elim)) ?_
    intro s2 _ hg
    exact ⟨hi1, hg.1, (hk1.mono (fun _ h => List.mem_append_right _ h) (fun _ h => h)).trans (hg.2.mono (fun _ h => List.mem_append_right _ h) (fun _ h => h))⟩
  · rw [if_neg h0, if_neg h1, if_pos h2]
    obtain ⟨d, hsub⟩ := hpt.sub (by rintro rfl; simp at h2; omega)
    rw [hsub.lev, hsub.shift]
    refine out_bind (out_mono (decInner_out hB (r := ⟨v.root, .node t.root, e, false⟩) rfl hsub.wf (by rw [hsub.els]) h) (fun _ _ h => h) (fun _ h => h.elim)) ?_
    intro s1 _ hg
    exact out_mono (hinc s1 v.tail t.tail hg.1 (Kept.tail hg.2)) (fun _ _ h => h) (fun _ h => h.elim)
  · rw [if_neg h0, if_neg h1, if_neg h2, if_pos h3, hpt.rest]
    have h' := h.permL hsw
    rw [hpt.tail] at h' hsw
    have hfit : RFits c 0 (.reg (.leafSub tl.length)) (.leaf tl) := ⟨rfl, rfl, by show 1 ≤ tl.length; omega, hpt.le⟩
    have hval : Rrb.sliceLeft c true 0 ((RShp.reg (.leafSub tl.length)).pos (.leaf tl)) (n - pre.length) = some (0, .leaf (tl.drop (n - pre.length))) := by
      have hle := hpt.le
      have hidx : (n - pre.length) &&& (2 ^ c.BL - 1) = n - pre.length := by
        rw [Nat.and_two_pow_sub_one_eq_mod, Nat.mod_eq_of_lt (by omega)]
      have hpe : (RShp.reg (.leafSub tl.length)).pos (.leaf tl) = (.leafSub (.leaf tl) tl.length : Pos T) := rfl
      rw [hpe]
      simp only [Rrb.sliceLeft, Pos.index, Pos.node, Pos.count, hidx, Rrb.copyLeafI, Node.leaf?, Option.bind_eq_bind, Option.bind_some]
      rw [slice_ok (by omega) (Nat.le_refl _), Option.bind_some, Vec.mkLeaf_ok (by simp; omega), List.take_of_length_le (by simp)]
      rfl
    refine out_bind (out_mono (sliceLeftMut_out hB hE he hX 0 O (⟨v.root, .node t.root, e, false⟩ :: L) true s ⟨v.tail, .node (.leaf tl), e, false⟩ _ _ (n - pre.length) _ hfit trivial (by show tl.length ≤ _; omega) (fun _ hl => by omega) h4 hval rfl (fun _ => rfl) h')
      (fun _ _ h => h) (fun _ hg => ⟨hg.1.permL hsw.symm, Kept.tail hg.2⟩)) ?_
    rintro s1 q ⟨_, hi1, hk1⟩
    by_cases h5 : pre.length ≠ 0
    · rw [if_pos h5]
      obtain ⟨d, hsub⟩ := hpt.sub (by rintro rfl; simp at h5)
      rw [hsub.lev, hsub.shift]
      refine out_bind (out_mono (decInner_out hB (r := ⟨v.root, .node t.root, e, false⟩) rfl hsub.wf (by rw [hsub.els]) (hi1.permL (List.Perm.swap _ _ _))) (fun _ _ h => h) (fun _ h => h.elim)) ?_
      intro s2 _ hg
      exact out_mono (hinc s2 q.2 _ hg.1 ((Kept.tail hk1).trans (Kept.tail hg.2))) (fun _ _ h => h) (fun _ h => h.elim)
    · rw [if_neg h5]
      rcases hpt.root with ⟨_, hr, hsh⟩ | ⟨d, hne, _⟩
      · refine ⟨⟨by show v.size - n = t.size - n; rw [hi.size], hsh⟩, ?_, Kept.tail hk1⟩
        have := hi1.permL (List.Perm.swap _ _ _)
        rw [hr] at this
        exact this
      · simp at h5
        exact absurd h5 hne
  · rw [if_neg h0, if_neg h1, if_neg h2, if_neg h3, bind_ok (h4.rel hden), h4.lev]
    refine out_bind (sliceLeftMut_out hB hE he hX (d + 1) O (⟨v.tail, .node t.tail, e, false⟩ :: L) true s ⟨v.root, .node t.root, e, false⟩ _ _ n res h4.fits h4.sub (by rw [h4.els]; omega)
      (h4.small (by rw [hi.shift]; exact hsm.2)) h5 h6 rfl (fun _ => rfl) h |> fun z => out_mono z (fun _ _ h => h) (fun _ hg => ⟨hg.1, Kept.tail hg.2⟩)) ?_
    rintro s1 q ⟨q1, hi1, hk1⟩
    exact ⟨⟨by show v.size - n = t.size - n; rw [hi.size], q1⟩, hi1, Kept.tail hk1⟩

/-- reading does not change memory -/
theorem descendG_out : ∀ (d p : Nat) (N : Node T) (R : Node T) (j : Nat), Den (sys c E u) s.mem p (.node N) → descendRegular c d N i = some (R, j) →
    ∃ q, descend c d p i s = .ok s q ∧ j = i ∧ Den (sys c E u) s.mem q (.node R)
  | 0, p, N, R, j, hd, h => by
    cases h
    exact ⟨p, rfl, rfl, hd⟩
  | d + 1, p, .leaf _, R, j, hd, h => by
    simp [descendRegular, Node.inner?] at h
  | d + 1, p, .inner rs cs, R, j, hd, h => by
    simp only [descendRegular, Node.inner?, Option.bind_eq_bind, Option.bind_some, Option.bind_eq_some_iff] at h
    obtain ⟨x, hx, h⟩ := h
    obtain ⟨cl, cap, r, ks, hc, hdt, _, _, _, hk⟩ := den_inner hd
    obtain ⟨q, hq, hqd⟩ := hk _ _ hx
    unfold descend
    rw [bind_ok (kid_eq hc hdt hq)]
    exact descendG_out d q x R j hqd h

theorem descendR_out (m : Bool) : ∀ (d p : Nat) (N : Node T) (R : Node T) (i j : Nat), Den (sys c E u) s.mem p (.node N) → descendMaybe c m d N i = some (R, j) →
    ∃ q, descendR c m d p i s = .ok s (q, j) ∧ Den (sys c E u) s.mem q (.node R)
  | 0, p, N, R, i, j, hd, h => by
    cases h
    exact ⟨p, rfl, hd⟩
  | d + 1, p, .leaf _, R, i, j, hd, h => by
    simp [descendMaybe, Node.relaxed?] at h
  | d + 1, p, .inner none cs, R, i, j, hd, h => by
    obtain ⟨cl, cap, r, ks, hc, hdt, _, hr, _, hk⟩ := den_inner hd
    cases r with
    | some _ => cases hr
    | none =>
      have h : descendRegular c (d + 1) (.inner none cs) i = some (R, j) := h
      obtain ⟨q, h1, rfl, h3⟩ := descendG_out (d + 1) p _ R j hd h
      unfold descendR
      rw [bind_ok (tableOf_eq hc hdt)]
      simp only
      rw [bind_ok h1]
      exact ⟨q, rfl, h3⟩
  | d + 1, p, .inner (some sz) cs, R, i, j, hd, h => by
    obtain ⟨cl, cap, r, ks, hc, hdt, _, hr, ht, hk⟩ := den_inner hd
    cases r with
    | none => cases hr
    | some tb =>
      simp only [descendMaybe, Node.relaxed?, Node.inner?, Option.bind_eq_bind, Option.bind_some, Option.bind_eq_some_iff] at h
      obtain ⟨o, ho, x, hx, b, hb, h⟩ := h
      obtain ⟨q, hq, hqd⟩ := hk _ _ hx
      unfold descendR
      rw [bind_ok (tableOf_eq hc hdt)]
      simp only
      rw [bind_ok (sizesOf_den (ht tb rfl sz rfl)), bind_ok (liftO_eq ho), bind_ok (kid_eq hc hdt hq), bind_ok (liftO_eq hb)]
      exact descendR_out m d q x R (i - b) j hqd h

/-- `get` -/
theorem fget_out (hB : 0 < c.B) (hi : Is v t) (hv : Flex.Inv c t l) (hf : Flex.Fits c t) (hlt : i < l.length) (hr : Den (sys c E u) s.mem v.root (.node t.root)) (ht : Den (sys c E u) s.mem v.tail (.node t.tail)) :
    Fc.get c v i s = .ok s l[i] := by
  have hg := Flex.get_spec hB hv hf hlt
  obtain ⟨pre, tl, hl2, hpt⟩ := fparts hB hi hv
  simp only [Flex.get, Flex.descend, hpt.off', Option.bind_eq_bind, Option.bind_some] at hg
  unfold Fc.get
  rw [bind_ok (off_eq hpt hi hr)]
  have key : ∀ (q j : Nat) (R : Node T), Den (sys c E u) s.mem q (.node R) → getLeaf c R j = some l[i] → readEl q (j &&& (2 ^ c.BL - 1)) s = .ok s l[i] := by
    intro q j R hq hR
    cases R with
    | inner _ _ => simp [getLeaf, Node.leaf?] at hR
    | leaf xs =>
      simp only [getLeaf, Node.leaf?, Option.bind_eq_bind, Option.bind_some] at hR
      obtain ⟨cl, g, hc, hok, _⟩ := hq.cell
      obtain ⟨_, _, hel, _⟩ := okD_leaf hok
      refine readEl_eq hc ?_
      have hx : j &&& (2 ^ c.BL - 1) < xs.length := by
        by_contra hcon
        rw [List.getElem?_eq_none (by omega)] at hR
        cases hR
      rw [hel.get hx, hR]
      rfl
  by_cases hle : pre.length ≤ i
  · rw [if_pos hle] at hg ⊢
    exact key _ _ _ ht hg
  · rw [if_neg hle] at hg ⊢
    simp only [visitMaybeRelaxedDescent, Option.bind_eq_bind, Option.bind_eq_some_iff] at hg
    obtain ⟨⟨R, j⟩, ⟨⟨d, m⟩, h1, h2⟩, h3⟩ := hg
    obtain ⟨q, hq, hqd⟩ := descendR_out m d v.root _ R i j hr h2
    rw [hi.shift, h1]
    show M.bind (descendR c m d v.root i) _ s = _
    rw [bind_ok hq]
    exact key _ _ _ hqd h3
end
end FlexHeap
