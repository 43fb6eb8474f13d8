import Verif.VecHeap.Ops

/-!
# The operations of vectors on memory: updates, slices, reads
-/

namespace VecHeap
open Mm Rrb

variable {T : Type} {c : Cfg} {E : Env Dat T} {u : Toks E.gc} {O : List Nat} {L : List (Ref (Val T))}

section
variable {s : St Dat T} {m m' : Mem Dat T} {p q n i k e : Nat} {xs l : List T} {t t' : Tree T} {v : Vc} {N : Node T} {r : Ref (Val T)} {own : Option Nat} {cl : Cell Dat T} {f : T → T}

theorem low_bits {pre i : Nat} (hd : 2 ^ c.BL ∣ pre) (h1 : pre ≤ i) (h2 : i < pre + 2 ^ c.BL) : i &&& (2 ^ c.BL - 1) = i - pre := by
  rw [Nat.and_two_pow_sub_one_eq_mod]
  obtain ⟨a, ha⟩ := hd
  have : i = (i - pre) + 2 ^ c.BL * a := by omega
  rw [this, Nat.add_mul_mod_self_left, ← ha, Nat.add_sub_cancel, Nat.mod_eq_of_lt (by omega)]

/-- the cases of `update` -/
theorem Parts.update {pre tl : List T} (hi : Is v t) (hp : Parts c v t pre tl) (hlt : i < pre.length + tl.length) (h : Vec.update c t i f = some t') :
    (v.off c ≤ i ∧ Fits c 0 (.leafSub tl.length) t.tail ∧ (∃ x, tl[i - v.off c]? = some x ∧ t' = { t with tail := .leaf (tl.set (i - v.off c) (f x)) }) ∧ ∃ R, Rrb.updateV c f 0 ((Shp.leafSub tl.length).pos t.tail) (i - v.off c) = some R ∧ t' = { t with tail := R }) ∨
    (¬ v.off c ≤ i ∧ ∃ d R, levels c v.shift = d + 1 ∧ Fits c (d + 1) (v.shp c) t.root ∧ Rrb.updateV c f (d + 1) ((v.shp c).pos t.root) i = some R ∧ t' = { t with root := R }) := by
  have hts : t.size - pre.length = tl.length := by rw [← hi.size, ← hp.off]; exact hp.rest
  simp only [Vec.update, hp.off', hts] at h
  rw [hp.off]
  by_cases hle : pre.length ≤ i
  · left
    rw [if_pos hle] at h
    have hf : Fits c 0 (.leafSub tl.length) t.tail := by
      unfold Fits
      rw [hp.tail]
      exact ⟨rfl, rfl, by show 1 ≤ tl.length; omega, hp.le⟩
    have hpos : (Shp.leafSub tl.length).pos t.tail = .leafSub t.tail tl.length := rfl
    cases hR : Rrb.updateV c f 0 (.leafSub t.tail tl.length) (i - pre.length) with
    | none => rw [hR] at h; cases h
    | some R =>
      rw [hR] at h
      cases h
      obtain ⟨xs, off, x, h1, h2, h3, h4, h5, h6, rfl⟩ := hf.updLeaf (hpos ▸ hR)
      rw [hp.tail] at h1
      cases h1
      have : off = i - pre.length := by
        simp only [Shp.index, Shp.pos, Pos.index, Option.some.injEq] at h5
        rw [← h5, Nat.and_two_pow_sub_one_eq_mod, Nat.mod_eq_of_lt (by have := hp.le; omega)]
      subst this
      exact ⟨hle, hf, ⟨x, h6, rfl⟩, _, hR, rfl⟩
  · right
    rw [if_neg hle] at h
    rcases hp.root with ⟨rfl, hr, hs⟩ | ⟨d, hne, hs, hlev, hr, he, hf, hpos⟩
    · simp at hle
    · rw [hpos, ← hi.shift, hlev] at h
      cases hR : Rrb.updateV c f (d + 1) ((v.shp c).pos t.root) i with
      | none => rw [hR] at h; cases h
      | some R =>
        rw [hR] at h
        cases h
        exact ⟨hle, d, R, hlev, hf, hR, by rw [hi.shift]⟩

/-- `update` -/
theorem update_out (hB : 0 < c.B) (hE : E.Fresh) {user : Bool} (hi : Is v t) (hv : Vec.Inv c t l) (hlt : i < l.length) (hp : Vec.update c t i f = some t') (h : Inv (sys c E u) s.mem O (refs v t 0 ++ L)) :
    Out (v.update c E user f i s) (Made c E u O (refs v t 0 ++ L) s.mem t' 0) (fun s' => Gone c E u O (refs v t 0 ++ L) s.mem s'.mem) := by
  obtain ⟨pre, tl, rfl, hpt⟩ := parts hB hi hv
  obtain ⟨har, hat⟩ := refs_ok h (v := v) (t := t) (fun r hr => List.mem_append_left _ hr)
  unfold Vc.update
  rw [hpt.rest]
  rcases hpt.update hi (by simpa using hlt) hp with ⟨h1, h2, _, R, h3, rfl⟩ | ⟨h1, d, R, h2, h3, h4, rfl⟩
  · rw [if_pos h1]
    refine out_bind (updateV_out hB hE user f 0 O s v.tail _ _ _ R h2 h3 h hat) ?_
    rintro s1 q ⟨hi1, hk1⟩
    have hm : (⟨v.root, .node t.root, 0, false⟩ : Ref (Val T)) ∈ ⟨q, .node R, 0, false⟩ :: (refs v t 0 ++ L) := by simp [refs]
    have hi1 := VecHeap.retok hi1 (t' := 0) (fun _ => rfl) false (fun h => by cases h)
    refine out_bind (out_mono (inc_mem hi1 hm (unowned hi1 hm rfl) 0) (fun _ _ h => h) (fun _ h => h.elim)) ?_
    rintro s2 _ ⟨hi2, hk2⟩
    exact ⟨⟨hi.size, hi.shift⟩, hi2, hk1.trans (Kept.tail hk2)⟩
  · rw [if_neg h1, h2]
    refine out_bind (updateV_out hB hE user f (d + 1) O s v.root _ _ _ R h3 h4 h har) ?_
    rintro s1 q ⟨hi1, hk1⟩
    have hm : (⟨v.tail, .node t.tail, 0, false⟩ : Ref (Val T)) ∈ ⟨q, .node R, 0, false⟩ :: (refs v t 0 ++ L) := by simp [refs]
    have hi1 := VecHeap.retok hi1 (t' := 0) (fun _ => rfl) false (fun h => by cases h)
    refine out_bind (out_mono (inc_mem hi1 hm (unowned hi1 hm rfl) 0) (fun _ _ h => h) (fun _ h => h.elim)) ?_
    rintro s2 _ ⟨hi2, hk2⟩
    exact ⟨⟨hi.size, hi.shift⟩, hi2.permL (List.Perm.swap _ _ _), hk1.trans (Kept.tail hk2)⟩

/-- the nodes on the way to the element may be changed in place by `e` -/
def Ready (c : Cfg) (E : Env Dat T) (m : Mem Dat T) (e : Nat) (v : Vc) (i : Nat) : Prop :=
  if v.off c ≤ i then Mine E m e v else Path c E m e [] (levels c v.shift) v.root (v.shp c) i

/-- `get_mut`: afterwards any element may be put there, and nodes on the way may be changed in place -/
theorem vcGetMut_ready (hB : 0 < c.B) (hE : E.Fresh) (he : E.gc = true → u.live e) (hi : Is v t) (hv : Vec.Inv c t l) (hlt : i < l.length) (h : Inv (sys c E u) s.mem O (refs v t e ++ L)) :
    Out (v.getMut c E e i s) (fun s' r => (∃ cl x, s'.mem r.2.1 = some cl ∧ cl.els[r.2.2]? = some (.live x) ∧
        ∀ f t', Vec.update c t i f = some t' → Is r.1 t' ∧ Inv (sys c E u) (upd s'.mem r.2.1 (some { cl with els := cl.els.set r.2.2 (.live (f x)) })) O (refs r.1 t' e ++ L) ∧
          Kept (sys c E u) O L s.mem (upd s'.mem r.2.1 (some { cl with els := cl.els.set r.2.2 (.live (f x)) }))) ∧ r.1.size = v.size ∧ r.1.shift = v.shift ∧ Ready c E s'.mem e r.1 i)
      (fun s' => Gone c E u O (refs v t e ++ L) s.mem s'.mem) := by
  have hv0 := hv
  obtain ⟨pre, tl, rfl, hpt⟩ := parts hB hi hv
  unfold Vc.getMut
  rw [hpt.rest]
  have hsw : (refs v t e ++ L).Perm (⟨v.tail, .node t.tail, e, false⟩ :: ⟨v.root, .node t.root, e, false⟩ :: L) := List.Perm.swap _ _ _
  have h' := h.permL hsw
  by_cases h1 : v.off c ≤ i
  · rw [if_pos h1]
    rw [hpt.tail] at h' hsw
    refine out_bind (out_mono (mutableTail_out hE he rfl hpt.le h') (fun _ _ h => h) (fun _ hg => Gone.permL hg hsw.symm)) ?_
    rintro s1 v' ⟨q, cl, rfl, ho, hk⟩
    have hx : i - v.off c < tl.length := by
      rw [List.length_append] at hlt
      rw [hpt.off] at h1 ⊢
      omega
    have hle := hpt.le
    have hidx : i &&& (2 ^ c.BL - 1) = i - v.off c := by
      rw [hpt.off] at h1 hx ⊢
      exact low_bits hpt.dvd h1 (by omega)
    show (∃ cl x, _) ∧ _
    simp only [hidx]
    refine ⟨⟨cl, tl[i - v.off c], ho.cell, by rw [ho.els.get hx, List.getElem?_eq_getElem hx]; rfl, ?_⟩, trivial, trivial, ?_⟩
    rotate_left
    · unfold Ready
      rw [if_pos (show Vc.off c { v with tail := q } ≤ i from h1)]
      exact ⟨cl, ho.cell, mutable_intro ho.rc ho.tok⟩
    intro f t' hp
    rcases hpt.update hi (by simpa using hlt) hp with ⟨_, _, ⟨x, h2, rfl⟩, _⟩ | ⟨h1', _⟩
    · rw [List.getElem?_eq_getElem hx] at h2
      cases h2
      exact ⟨⟨hi.size, hi.shift⟩, (ho.put (ho.els.set hx (f _)) (by simpa using ho.len)).permL (List.Perm.swap _ _ _), (Kept.tail hk).trans (Kept.tail (Kept.write ho.inv _))⟩
    · exact absurd h1 h1'
  · rw [if_neg h1]
    have key : ∀ g t', Vec.update c t i g = some t' → ∃ d R, levels c v.shift = d + 1 ∧ Fits c (d + 1) (v.shp c) t.root ∧ Rrb.updateV c g (d + 1) ((v.shp c).pos t.root) i = some R ∧ t' = { t with root := R } := by
      intro g t' ht'
      rcases hpt.update hi (by simpa using hlt) ht' with ⟨h1', _⟩ | ⟨_, h2⟩
      · exact absurd h1' h1
      · exact h2
    have hall : ∃ d, levels c v.shift = d + 1 ∧ Fits c (d + 1) (v.shp c) t.root ∧ ∀ g, ∃ R, Rrb.updateV c g (d + 1) ((v.shp c).pos t.root) i = some R := by
      obtain ⟨t1, ht1, _⟩ := Vec.update_spec hB hv0 hlt id
      obtain ⟨d, _, h2, h3, _⟩ := key _ _ ht1
      refine ⟨d, h2, h3, fun g => ?_⟩
      obtain ⟨t2, ht2, _⟩ := Vec.update_spec hB hv0 hlt g
      obtain ⟨d', R', h2', _, h4', _⟩ := key _ _ ht2
      rw [h2] at h2'
      have : d = d' := by omega
      subst this
      exact ⟨R', h4'⟩
    obtain ⟨d, h2, h3, hall⟩ := hall
    rw [h2]
    refine out_bind (getMut_path hB hE he (d + 1) O _ s ⟨v.root, .node t.root, e, false⟩ _ _ i h3 hall rfl (fun _ => rfl) h) ?_
    rintro s1 ⟨g1, ℓ, j⟩ ⟨⟨cg, xe, hcg, hxe, hg⟩, hpath⟩
    refine ⟨⟨cg, xe, hcg, hxe, ?_⟩, rfl, rfl, ?_⟩
    rotate_left
    · unfold Ready
      rw [if_neg (show ¬ Vc.off c { v with root := g1 } ≤ i from h1), show ({ v with root := g1 } : Vc).shift = v.shift from rfl, h2]
      exact hpath.congr (fun _ h => by cases h) fun a ca _ hca _ => ⟨ca, hca, rfl, rfl, rfl⟩
    intro f t' hp
    obtain ⟨d', R, h2', _, h4, rfl⟩ := key _ _ hp
    rw [h2] at h2'
    have : d = d' := by omega
    subst this
    obtain ⟨hi2, hk2⟩ := hg f R h4
    exact ⟨⟨hi.size, hi.shift⟩, hi2, Kept.tail hk2⟩

/-- `get_mut`: afterwards any element may be put there -/
theorem vcGetMut_out (hB : 0 < c.B) (hE : E.Fresh) (he : E.gc = true → u.live e) (hi : Is v t) (hv : Vec.Inv c t l) (hlt : i < l.length) (h : Inv (sys c E u) s.mem O (refs v t e ++ L)) :
    Out (v.getMut c E e i s) (fun s' r => ∃ cl x, s'.mem r.2.1 = some cl ∧ cl.els[r.2.2]? = some (.live x) ∧
        ∀ f t', Vec.update c t i f = some t' → Is r.1 t' ∧ Inv (sys c E u) (upd s'.mem r.2.1 (some { cl with els := cl.els.set r.2.2 (.live (f x)) })) O (refs r.1 t' e ++ L) ∧
          Kept (sys c E u) O L s.mem (upd s'.mem r.2.1 (some { cl with els := cl.els.set r.2.2 (.live (f x)) })))
      (fun s' => Gone c E u O (refs v t e ++ L) s.mem s'.mem) :=
  out_mono (vcGetMut_ready hB hE he hi hv hlt h) (fun _ _ h => h.1) (fun _ h => h)

/-- the cases of `take` -/
theorem Parts.take (hB : 0 < c.B) {pre tl : List T} (hi : Is v t) (hp : Parts c v t pre tl) (h : Vec.take c t n = some t') :
    (n = 0 ∧ t' = Vec.empty c) ∨ (n ≠ 0 ∧ v.size ≤ n ∧ t' = t) ∨
    (n ≠ 0 ∧ ¬ v.size ≤ n ∧ v.off c < n ∧ n - v.off c ≤ tl.length ∧ t' = ⟨n, t.shift, t.root, .leaf (tl.take (n - v.off c))⟩) ∨
    (n ≠ 0 ∧ ¬ v.size ≤ n ∧ ¬ v.off c < n ∧ ∃ d res, levels c v.shift = d + 1 ∧ Fits c (d + 1) (v.shp c) t.root ∧ (n - 1) % Rrb.cap c (d + 1) < (els (d + 1) t.root).length ∧
      Rrb.sliceRight c true (d + 1) ((v.shp c).pos t.root) (n - 1) = some res ∧
      ((res.2.1 = none ∧ t' = ⟨n, c.BL, emptyRoot, res.2.2.2⟩) ∨ ∃ R, res.2.1 = some R ∧ t' = ⟨n, res.1, R, res.2.2.2⟩)) := by
  simp only [Vec.take, hp.off'] at h
  rw [hp.off, hi.size]
  by_cases h0 : n = 0
  · rw [if_pos h0] at h
    cases h
    exact .inl ⟨h0, rfl⟩
  rw [if_neg h0] at h
  by_cases h1 : t.size ≤ n
  · rw [if_pos h1] at h
    cases h
    exact .inr (.inl ⟨h0, h1, rfl⟩)
  rw [if_neg h1] at h
  have hsz := hp.size
  rw [hi.size] at hsz
  by_cases h2 : pre.length < n
  · have hle : n - pre.length ≤ tl.length := by omega
    have hle2 := hp.le
    rw [if_pos h2] at h
    simp only [Rrb.copyLeaf, hp.tail, Node.leaf?, Option.bind_eq_bind, Option.bind_some] at h
    rw [slice_zero hle, Option.bind_some, Vec.mkLeaf_ok (by simp; omega)] at h
    cases h
    exact .inr (.inr (.inl ⟨h0, h1, h2, hle, rfl⟩))
  · rw [if_neg h2] at h
    refine .inr (.inr (.inr ⟨h0, h1, h2, ?_⟩))
    rcases hp.root with ⟨rfl, hr, hs⟩ | ⟨d, hne, hs, hlev, hr, he, hf, hpos⟩
    · simp at h2; omega
    · rw [hpos, ← hi.shift, hlev] at h
      have hlen := hr.len
      rw [he] at hlen
      cases hR : Rrb.sliceRight c true (d + 1) ((v.shp c).pos t.root) (n - 1) with
      | none => rw [hR] at h; cases h
      | some res =>
        rw [hR] at h
        refine ⟨d, res, hlev, hf, by rw [he, Nat.mod_eq_of_lt (by omega)]; omega, hR, ?_⟩
        obtain ⟨a, b, cc, dd⟩ := res
        cases b with
        | none => cases h; exact .inl ⟨rfl, rfl⟩
        | some R => cases h; exact .inr ⟨R, rfl, rfl⟩

/-- `take` -/
theorem take_out (hB : 0 < c.B) (hE : E.Fresh) {er et : Nat} (hi : Is v t) (hv : Vec.Inv c t l) (hp : Vec.take c t n = some t') (hs : Statics er et (refs v t 0 ++ L)) (h : Inv (sys c E u) s.mem O (refs v t 0 ++ L)) :
    Out (v.take c E er et n s) (Made c E u O (refs v t 0 ++ L) s.mem t' 0) (fun s' => Gone c E u O (refs v t 0 ++ L) s.mem s'.mem) := by
  obtain ⟨pre, tl, rfl, hpt⟩ := parts hB hi hv
  obtain ⟨har, hat⟩ := refs_ok h (v := v) (t := t) (fun r hr => List.mem_append_left _ hr)
  unfold Vc.take
  rcases hpt.take hB hi hp with ⟨h0, rfl⟩ | ⟨h0, h1, rfl⟩ | ⟨h0, h1, h2, h3, rfl⟩ | ⟨h0, h1, h2, d, res, h3, h4, h5, h6, h7⟩
  · rw [if_pos h0]
    exact out_mono (empty_out h hs 0) (fun _ _ h => h.2) (fun _ h => h.elim)
  · rw [if_neg h0, if_pos h1]
    refine out_bind (out_mono (share_out h (v := v) (t := t') (fun r hr => List.mem_append_left _ hr) 0) (fun _ _ h => h) (fun _ h => h.elim)) ?_
    rintro s1 _ ⟨hi1, hk1⟩
    exact ⟨hi, hi1, hk1⟩
  · rw [if_neg h0, if_neg h1, if_pos h2]
    rw [hpt.tail] at hat
    have hle := hpt.le
    refine out_bind (copyLeaf_out (own := none) (t := 0) hE h hat (n := n - v.off c) h3 (by omega) (fun _ => rfl)) ?_
    rintro s1 q ⟨hi1, hk1⟩
    have hm : (⟨v.root, .node t.root, 0, false⟩ : Ref (Val T)) ∈ ⟨q, .node (.leaf (tl.take (n - v.off c))), 0, false⟩ :: (refs v t 0 ++ L) := by simp [refs]
    have hi1 := VecHeap.retok hi1 (t' := 0) (fun _ => rfl) false (fun h => by cases h)
    refine out_bind (out_mono (inc_mem hi1 hm (unowned hi1 hm rfl) 0) (fun _ _ h => h) (fun _ h => h.elim)) ?_
    rintro s2 _ ⟨hi2, hk2⟩
    exact ⟨⟨rfl, hi.shift⟩, hi2, hk1.trans (Kept.tail hk2)⟩
  · rw [if_neg h0, if_neg h1, if_neg h2, h3]
    refine out_bind (sliceNew_out (own := none) (t := 0) hB hE (fun _ => rfl) (d + 1) true s v.root _ _ _ res h4 h5 h6 h har (fun h => by cases h)) ?_
    rintro s1 rr ⟨Lr, ⟨c1, c2, hor⟩, hi1, hk1⟩
    rcases hor with ⟨e1, e2, rfl⟩ | ⟨a, R, e1, e2, rfl⟩
    · rw [e1]
      rcases h7 with ⟨_, rfl⟩ | ⟨R, e3, _⟩
      · have hm := List.mem_append_right [(⟨rr.2.2.2, .node res.2.2.2, 0, false⟩ : Ref (Val T))] hs.1
        refine out_bind (out_mono (inc_mem hi1 hm (unowned hi1 hm rfl) 0) (fun _ _ h => h) (fun _ h => h.elim)) ?_
        rintro s2 _ ⟨hi2, hk2⟩
        exact ⟨⟨rfl, rfl⟩, hi2, hk1.trans (Kept.tail hk2)⟩
      · rw [e3] at e2; cases e2
    · rw [e1]
      rcases h7 with ⟨e3, _⟩ | ⟨R', e3, rfl⟩
      · rw [e3] at e2; cases e2
      · rw [e3] at e2
        cases e2
        exact ⟨⟨rfl, c1⟩, hi1, hk1⟩

/-- `take_mut` -/
theorem takeMut_out (hB : 0 < c.B) (hE : E.Fresh) (he : E.gc = true → u.live e) {er et : Nat} (hi : Is v t) (hv : Vec.Inv c t l) (hp : Vec.take c t n = some t') (hs : Statics er et L) (h : Inv (sys c E u) s.mem O (refs v t e ++ L)) :
    Out (v.takeMut c E e er et n s) (Made c E u O L s.mem t' e) (fun s' => Gone c E u O (refs v t e ++ L) s.mem s'.mem) := by
  have hv0 := hv
  obtain ⟨pre, tl, rfl, hpt⟩ := parts hB hi hv
  unfold Vc.takeMut
  have hsw : (refs v t e ++ L).Perm (⟨v.tail, .node t.tail, e, false⟩ :: ⟨v.root, .node t.root, e, false⟩ :: L) := List.Perm.swap _ _ _
  rcases hpt.take hB hi hp with ⟨h0, rfl⟩ | ⟨h0, h1, rfl⟩ | ⟨h0, h1, h2, h3, rfl⟩ | ⟨h0, h1, h2, d, res, h3, h4, h5, h6, h7⟩
  · rw [if_pos h0]
    refine out_bind (out_mono (empty_out h ⟨List.mem_append_right _ hs.1, List.mem_append_right _ hs.2⟩ e) (fun _ _ h => h) (fun _ h => h.elim)) ?_
    rintro s1 v1 ⟨_, hi1, hiv, hk1⟩
    have hiv' : Inv (sys c E u) s1.mem O (refs v t e ++ (refs v1 (Vec.empty c) e ++ L)) := hiv.permL (List.perm_append_comm_assoc _ _ _)
    refine out_bind (out_mono (drop_out hB hi hv0 hiv') (fun _ _ h => h) (fun _ h => h.elim)) ?_
    intro s2 _ hg
    exact ⟨hi1, hg.1, (hk1.mono (fun _ h => List.mem_append_right _ h) (fun _ h => h)).trans (hg.2.mono (fun _ h => List.mem_append_right _ h) (fun _ h => h))⟩
  · rw [if_neg h0, if_pos h1]
    exact ⟨hi, h, .refl⟩
  · rw [if_neg h0, if_neg h1, if_pos h2]
    have h' := h.permL hsw
    rw [hpt.tail] at h' hsw
    obtain ⟨cl, _, hc, _⟩ := h'.look List.mem_cons_self
    have hc : s.mem v.tail = some cl := hc
    have hle := hpt.le
    rw [bind_ok (canMutate_eq hc), hpt.rest]
    by_cases hm : mutable E e cl = true
    · rw [if_pos hm]
      obtain ⟨hd, ⟨k, hx⟩, hlen, hop⟩ := open_leaf he h' rfl hc hm
      have ho : Opened c E u e O (⟨v.root, .node t.root, e, false⟩ :: L) tl s.mem v.tail cl := ⟨hc, hd, ⟨k, hx⟩, hlen, fun hg => mutable_rc hg hm, fun hg => mutable_tok hg hm, hop⟩
      rw [bind_ok (destroyN_eq ((tl.drop (n - v.off c)).map Slot.live) ((tl.take (n - v.off c)).map Slot.live) (List.replicate k .raw) (n - v.off c) (tl.length - (n - v.off c)) s cl hc
          (by rw [← List.map_append, List.take_append_drop]; exact hx) (by simp; omega) (by simp) (live_there _))]
      have hlen' : ((tl.take (n - v.off c)).map Slot.live ++ List.replicate (tl.length - (n - v.off c)) Slot.raw ++ List.replicate k Slot.raw).length = 2 ^ c.BL := by
        rw [← hlen, hx]
        simp
        omega
      refine ⟨⟨rfl, hi.shift⟩, (ho.put ⟨tl.length - (n - v.off c) + k, ?_⟩ hlen').permL (List.Perm.swap _ _ _), Kept.tail (Kept.write hop _)⟩
      simp only [List.append_assoc, List.replicate_append_replicate]
    · rw [if_neg hm]
      have hm := Bool.eq_false_iff.mpr hm
      have ha := at_of_shared h' List.mem_cons_self hc hm (fun _ => rfl)
      refine out_bind (out_mono (copyLeaf_out (own := some e) (t := e) hE h' ha (n := n - v.off c) h3 (by omega) (fun _ => rfl)) (fun _ _ h => h) (fun _ hg => Gone.permL hg hsw.symm)) ?_
      rintro s1 q ⟨hi1, hk1⟩
      refine out_bind (out_mono (decLeaf_out rfl rfl (hi1.permL (List.Perm.swap _ _ _))) (fun _ _ h => h) (fun _ h => h.elim)) ?_
      intro s2 _ hg
      exact ⟨⟨rfl, hi.shift⟩, (VecHeap.retok hg.1 (fun _ => rfl) false (fun h => by cases h)).permL (List.Perm.swap _ _ _), (Kept.tail (Kept.tail hk1)).trans (Kept.tail (Kept.tail hg.2))⟩
  · rw [if_neg h0, if_neg h1, if_neg h2, h3]
    refine out_bind (sliceMut_out hB hE he (d + 1) true O _ s ⟨v.root, .node t.root, e, false⟩ _ _ _ res h4 h5 h6 rfl (fun _ => rfl) h) ?_
    rintro s1 rr ⟨Lr, ⟨c1, c2, hor⟩, hi1, hk1⟩
    have hk1' := Kept.tail hk1
    rcases hor with ⟨e1, e2, rfl⟩ | ⟨a, R, e1, e2, rfl⟩
    · rw [e1]
      rcases h7 with ⟨_, rfl⟩ | ⟨R, e3, _⟩
      · have hm : (⟨er, .node emptyRoot, 0, false⟩ : Ref (Val T)) ∈ [(⟨rr.2.2.2, .node res.2.2.2, e, false⟩ : Ref (Val T))] ++ ⟨v.tail, .node t.tail, e, false⟩ :: L := List.mem_append_right _ (List.mem_cons_of_mem _ hs.1)
        refine out_bind (Q := fun s2 v' => v' = ⟨n, c.BL, er, rr.2.2.2⟩ ∧ Inv (sys c E u) s2.mem O (⟨er, .node emptyRoot, e, false⟩ :: ⟨rr.2.2.2, .node res.2.2.2, e, false⟩ :: ⟨v.tail, .node t.tail, e, false⟩ :: L) ∧
            Kept (sys c E u) O (⟨rr.2.2.2, .node res.2.2.2, e, false⟩ :: ⟨v.tail, .node t.tail, e, false⟩ :: L) s1.mem s2.mem) ?_ ?_
        · refine out_bind (out_mono (inc_mem hi1 hm (unowned hi1 hm rfl) e) (fun _ _ h => h) (fun _ h => h.elim)) ?_
          exact fun s2 _ h => ⟨rfl, h⟩
        · rintro s2 _ ⟨rfl, hi2, hk2⟩
          refine out_bind (out_mono (decLeaf_out (L := ⟨er, .node emptyRoot, e, false⟩ :: ⟨rr.2.2.2, .node res.2.2.2, e, false⟩ :: L) (r := ⟨v.tail, .node t.tail, e, false⟩) (by rw [hpt.tail]) hpt.rest.symm (hi2.permL (List.perm_middle (l₁ := [_, _])))) (fun _ _ h => h) (fun _ h => h.elim)) ?_
          · intro s3 _ hg
            exact ⟨⟨rfl, rfl⟩, hg.1, (hk1'.trans (Kept.tail (Kept.tail hk2))).trans (Kept.tail (Kept.tail hg.2))⟩
      · rw [e3] at e2; cases e2
    · rw [e1]
      rcases h7 with ⟨e3, _⟩ | ⟨R', e3, rfl⟩
      · rw [e3] at e2; cases e2
      · rw [e3] at e2
        cases e2
        refine out_bind (Q := fun s' v' => s' = s1 ∧ v' = ⟨n, rr.1, a, rr.2.2.2⟩) ⟨rfl, rfl⟩ ?_
        rintro _ _ ⟨rfl, rfl⟩
        refine out_bind (out_mono (decLeaf_out (L := [⟨a, .node R, e, false⟩, ⟨rr.2.2.2, .node res.2.2.2, e, false⟩] ++ L) (r := ⟨v.tail, .node t.tail, e, false⟩) (by rw [hpt.tail]) hpt.rest.symm (hi1.permL (List.perm_middle (l₁ := [_, _])))) (fun _ _ h => h) (fun _ h => h.elim)) ?_
        intro s3 _ hg
        exact ⟨⟨rfl, c1⟩, hg.1, hk1'.trans (Kept.tail (Kept.tail hg.2))⟩

/-- reading does not change memory -/
theorem descend_out : ∀ (d p : Nat) (N : Node T) (R : Node T) (j : Nat), Reg c d N → Den (sys c E u) s.mem p (.node N) → descendRegular c d N i = some (R, j) →
    ∃ q, descend c d p i s = .ok s q ∧ Den (sys c E u) s.mem q (.node R)
  | 0, p, N, R, j, _, hd, h => by
    cases h
    exact ⟨p, rfl, hd⟩
  | d + 1, p, N, R, j, hr, hd, h => by
    match N, hr with
    | .inner none cs, ⟨hl, ds, e, he, hds, hre⟩ =>
      simp only [descendRegular, Node.inner?, Option.bind_eq_bind, Option.bind_some, Option.bind_eq_some_iff] at h
      obtain ⟨x, hx, h⟩ := h
      obtain ⟨cl, g, hc, hok, hg⟩ := hd.cell
      obtain ⟨cap, ks, h1, h2, h3, h4, h5, h6⟩ := okD_inner hok
      have ho : (sys c E u).outs cl.data = ks := by show outsD cl.data = _; rw [h1]; rfl
      rw [ho] at h6 hg
      have hval := congrArg (fun z => z[(i >>> (c.BL + c.B * d)) &&& (2 ^ c.B - 1)]?) h6
      simp only [List.getElem?_map, hx, Option.map_some, Option.map_eq_some_iff] at hval
      obtain ⟨q, hq, hgq⟩ := hval
      have hreg : Reg c d x := by
        have : x ∈ ds ++ [e] := he ▸ List.mem_of_getElem? hx
        rcases List.mem_append.mp this with h | h
        · exact (hds x h).reg
        · rw [List.mem_singleton.mp h]; exact hre
      have hdq := hg q (List.mem_of_getElem? hq)
      rw [hgq] at hdq
      unfold descend
      rw [bind_ok (kid_eq hc h1 hq)]
      exact descend_out d q x R j hreg hdq h

/-- `get` -/
theorem get_out (hB : 0 < c.B) (hi : Is v t) (hv : Vec.Inv c t l) (hf : Vec.Fits c l.length) (hlt : i < l.length) (hr : Den (sys c E u) s.mem v.root (.node t.root)) (ht : Den (sys c E u) s.mem v.tail (.node t.tail)) :
    v.get c i s = .ok s l[i] := by
  have hv0 := hv
  obtain ⟨xs, hd, ⟨a, b, hl, hm, hx⟩, _⟩ := Vec.descend_spec hB hv hf hlt
  obtain ⟨pre, tl, hl2, hpt⟩ := parts hB hi hv
  simp only [Vec.descend, hpt.off'] at hd
  unfold Vc.get
  rw [hpt.off]
  have key : ∀ q, Den (sys c E u) s.mem q (.node (.leaf xs)) → readEl q (i &&& (2 ^ c.BL - 1)) s = .ok s l[i] := by
    intro q hq
    obtain ⟨cl, g, hc, hok, _⟩ := hq.cell
    obtain ⟨_, _, hel, _⟩ := okD_leaf hok
    refine readEl_eq hc ?_
    rw [hel.get hx, ← Rrb.At.get (l := l) (i := i) ⟨a, b, hl, hm, hx⟩, List.getElem?_eq_getElem hlt]
    rfl
  by_cases hle : pre.length ≤ i
  · rw [if_pos hle] at hd ⊢
    have he : t.tail = .leaf xs := by
      simpa using hd
    rw [he] at ht
    exact key _ ht
  · rw [if_neg hle] at hd ⊢
    rcases hpt.root with ⟨rfl, _, _⟩ | ⟨d, hne, hs, hlev, hreg, he, hfit, hpos⟩
    · simp at hle
    · simp only [visitRegularDescent, Option.bind_eq_bind, Option.bind_eq_some_iff] at hd
      obtain ⟨⟨r1, r2⟩, h1, h2⟩ := hd
      have h3 : c.deep = true ∨ d < 6 := by
        by_cases h6 : d < 6
        · exact .inr h6
        · left
          by_contra hdeep
          rw [← hi.shift, hs, descentLevels_deep hB d (Bool.eq_false_iff.mpr hdeep) (by omega)] at h1
          cases h1
      obtain ⟨b', hb'⟩ := descentLevels_shift hB d h3
      rw [← hi.shift, hs, hb'] at h1
      cases h1
      rw [hs, hb']
      obtain ⟨q, hq, hqd⟩ := descend_out (s := s) (i := i) (d + 1) v.root _ _ _ hreg hr h2
      show M.bind (descend c (d + 1) v.root i) _ s = _
      rw [bind_ok hq]
      exact key q hqd

end
end VecHeap
