import Verif.FlexHeap.Depth

/-!
# Concatenation adds at most one level (C55)
-/

namespace FlexHeap
open Mm Rrb VecHeap

variable {T β : Type} {c : Cfg} {E : Env Dat T} {X : Elem T} {er et : Nat}

/-- what is known of a child at `s`: it is a leaf, or one level below -/
def KidOf (c : Cfg) (s : Nat) (q : HPos) : Prop := q.2.isLeaf = true ∨ (s ≠ c.BL ∧ q.2.shift = s - c.B)

theorem kid_full (s p : Nat) : KidOf c s (p, .reg (Shp.kidFull c s)) := by
  unfold Shp.kidFull KidOf
  split
  · exact .inl rfl
  · exact .inr ⟨‹_›, rfl⟩

theorem kid_sub (s z p : Nat) : KidOf c s (p, .reg (kidRegSub c s z)) := by
  unfold kidRegSub KidOf
  split
  · exact .inl rfl
  · exact .inr ⟨‹_›, rfl⟩

theorem ends_kidRel (s z q : Nat) : Ends (kidRel c s z q : HM T RShp) (fun sh => KidOf c s (q, sh)) := by
  unfold kidRel
  split
  · exact ends_ret (.inl rfl)
  · rename_i h
    exact fun s' s'' b e => .inr ⟨h, ends_maybeRel q (s - c.B) z s' s'' b e⟩

theorem ends_lastSub (p : Nat) (sh : RShp) : Ends (lastSub c p sh : HM T HPos) (KidOf c sh.shift) := by
  unfold lastSub
  split
  · exact ends_any fun q => ends_ret (kid_sub _ _ _)
  · exact ends_any fun q => ends_any fun z => ends_bind (ends_kidRel _ z q) fun sh hs => ends_ret hs
  · exact ends_undef

theorem ends_firstSub (p : Nat) (sh : RShp) : Ends (firstSub c p sh : HM T HPos) (KidOf c sh.shift) := by
  unfold firstSub
  split
  · refine ends_any fun q => ends_ret ?_
    split
    · exact kid_full _ _
    · exact kid_sub _ _ _
  · exact ends_any fun q => ends_ret (kid_full _ _)
  · exact ends_any fun q => ends_any fun z => ends_bind (ends_kidRel _ z q) fun sh hs => ends_ret hs
  · exact ends_undef

theorem ends_leftLast (l : HLeft) : Ends (l.lastSub c : HM T HPos) (KidOf c (l.shift c)) := by
  cases l with
  | pos p => exact ends_lastSub p.1 p.2
  | single p k => exact ends_ret (.inl rfl)

/-- the children are one level below -/
theorem KidOf.low {k : Nat} {q : HPos} (h : KidOf c (c.BL + k * c.B) q) (hq : q.2.isLeaf = false) : ∃ k', k = k' + 1 ∧ q.2.shift = c.BL + k' * c.B := by
  rcases h with h | ⟨h1, h2⟩
  · rw [h] at hq; cases hq
  · cases k with
    | zero => exact absurd (by omega) h1
    | succ k => exact ⟨k, rfl, by rw [h2, Nat.add_mul]; omega⟩

/-- the centre has at least one level and at most `n` -/
def Mid (c : Cfg) (n : Nat) (x : HCenter) : Prop := ∃ j, j ≤ n ∧ x.shift = c.BL + j * c.B

theorem mid_rebalance {n : Nat} {x : HCenter} (h : Mid c n x) (ls rs : List HPos) : Ends (concatRebalance c E ls x rs) (Mid c (n + 1)) := by
  intro s s' b e
  obtain ⟨j, h1, h2⟩ := h
  exact ⟨j + 1, by omega, by rw [ends_concatRebalance ls x rs s s' b e, h2, Nat.add_mul]; omega⟩

theorem mid_leafs (n : Nat) (l : HPos) (t : Option HPos) (r : HPos) : Ends (concatLeafs c E l t r) (Mid c n) :=
  fun s s' b e => ⟨0, Nat.zero_le _, by rw [ends_concatLeafs l t r s s' b e]; omega⟩

theorem ends_if {p : Prop} [Decidable p] {x y : HM T β} {Q : β → Prop} (hx : p → Ends x Q) (hy : ¬ p → Ends y Q) : Ends (if p then x else y) Q := by
  split
  · exact hx ‹_›
  · exact hy ‹_›

theorem mid_inners : ∀ fuel l t r kl kr n, HLeft.shift c l = c.BL + kl * c.B → r.2.shift = c.BL + kr * c.B → kl ≤ n → kr ≤ n → Ends (concatInners c E fuel l t r) (Mid c (n + 1))
  | 0, _, _, _, _, _, _, _, _, _, _ => ends_undef
  | fuel + 1, l, t, r, kl, kr, n, hl, hr, hln, hrn => by
    have ih := mid_inners fuel
    have hlast := hl ▸ ends_leftLast (T := T) (c := c) l
    have hfirst := hr ▸ ends_firstSub (T := T) (c := c) r.1 r.2
    unfold concatInners
    refine ends_if (fun h => ?_) fun _ => ends_if (fun h => ?_) fun _ => ?_
    · refine ends_bind hlast fun q hq => ends_bind (P := Mid c n) (ends_if (fun _ => ends_undef) fun hn => ?_) fun x hx => ends_any fun _ => mid_rebalance hx _ _
      obtain ⟨k, rfl, hk⟩ := hq.low (by simpa using hn)
      rw [hl, hr] at h
      have hlt : kr < k + 1 := Nat.lt_of_mul_lt_mul_right (a := c.B) (by omega)
      obtain ⟨n, rfl⟩ : ∃ m, n = m + 1 := ⟨n - 1, by omega⟩
      exact ih _ _ _ k kr n hk hr (by omega) (by omega)
    · refine ends_bind hfirst fun q hq => ends_bind (P := Mid c n) (ends_if (fun _ => ?_) fun hn => ?_) fun x hx => ends_any fun _ => mid_rebalance hx _ _
      · split
        · exact mid_leafs _ _ _ _
        · exact ends_undef
      · obtain ⟨k, rfl, hk⟩ := hq.low (by simpa using hn)
        rw [hl, hr] at h
        have hlt : kl < k + 1 := Nat.lt_of_mul_lt_mul_right (a := c.B) (by omega)
        obtain ⟨n, rfl⟩ : ∃ m, n = m + 1 := ⟨n - 1, by omega⟩
        exact ih _ _ _ kl k n hl hk (by omega) (by omega)
    · refine ends_bind hlast fun q hq => ends_bind (P := Mid c n) (ends_if (fun _ => ends_any fun _ => mid_leafs _ _ _ _) fun hn => ends_bind hfirst fun q' hq' => ends_if (fun _ => mid_leafs _ _ _ _) fun hn' => ?_)
        fun x hx => ends_any fun _ => ends_any fun _ => mid_rebalance hx _ _
      obtain ⟨k, rfl, hk⟩ := hq.low (by simpa using hn)
      obtain ⟨k', rfl, hk'⟩ := hq'.low (by simpa using hn')
      obtain ⟨n, rfl⟩ : ∃ m, n = m + 1 := ⟨n - 1, by omega⟩
      exact ih _ _ _ k k' n hk hk' (by omega) (by omega)

/-- `shift` of a tree with `1 + k` levels for some `k < d` -/
def Upto (c : Cfg) (d s : Nat) : Prop := ∃ k, k < d ∧ s = c.BL + k * c.B

theorem Upto.levels {d s : Nat} (h : Upto c d s) : levels c s ≤ d := by
  obtain ⟨k, h1, rfl⟩ := h
  exact Nat.le_trans (levels_mul c k) h1

theorem upto_realize {n : Nat} {x : HCenter} (h : Mid c n x) : Ends (x.realize c E) (fun y => levels c y.1 ≤ n + 1) := by
  intro s s' b e
  obtain ⟨j, h1, h2⟩ := h
  exact Nat.le_trans (levels_mono c (ends_realize x s s' b e)) (by rw [h2]; exact Nat.le_trans (levels_mul c j) (by omega))

section
variable {l r : Vc} {d : Nat}

theorem upto_trees (hl : Upto c d l.shift) (hr : Upto c d r.shift) (o ro : Nat) :
    Ends (if o = 0 then concatTreesTail c E l.tail (l.size - o) r.root r.shift ro else concatTrees c E l.root l.shift o l.tail (l.size - o) r.root r.shift ro)
      (fun x => levels c x.1 ≤ d + 1) := by
  obtain ⟨kl, h1, h2⟩ := hl
  obtain ⟨kr, h3, h4⟩ := hr
  obtain ⟨n, rfl⟩ : ∃ n, d = n + 1 := ⟨d - 1, by omega⟩
  refine ends_ite ?_ ?_
  · unfold concatTreesTail
    exact ends_bind (ends_maybeRel _ _ _) fun sr hsr => ends_bind (mid_inners _ _ _ _ 0 kr n (show c.BL = _ by omega) (hsr.trans h4) (Nat.zero_le _) (by omega)) fun x hx => upto_realize hx
  · unfold concatTrees
    exact ends_bind (ends_maybeRel _ _ _) fun sl hsl => ends_bind (ends_maybeRel _ _ _) fun sr hsr => ends_bind (mid_inners _ _ _ _ kl kr n (hsl.trans h2) (hsr.trans h4) (by omega) (by omega)) fun x hx => upto_realize hx

theorem upto_concat (hl : Upto c d l.shift) (hr : Upto c d r.shift) : Ends (Fc.concat c E l r) (LevelsLe c (d + 1)) := by
  have h1 : levels c l.shift ≤ d + 1 := Nat.le_succ_of_le hl.levels
  have h2 : levels c r.shift ≤ d + 1 := Nat.le_succ_of_le hr.levels
  unfold Fc.concat
  refine ends_ite (ends_any fun _ => ends_ret h2) (ends_ite (ends_any fun _ => ends_ret h1) (ends_any fun ro => ends_any fun o => ends_ite ?_ ?_))
  · exact ends_bind (depth_concatTail (dl := d) (dr := 0) hl.levels _ _ _) fun x hx => ends_ret hx
  · exact ends_bind (upto_trees hl hr o ro) fun x hx => ends_any fun _ => ends_ret hx

theorem upto_concatMutL (hl : Upto c d l.shift) (hr : Upto c d r.shift) (mv : Bool) (e : Nat) : Ends (Fc.concatMutL c E mv e l r) (fun x => LevelsLe c (d + 1) x.1) := by
  have h0 : levels c l.shift ≤ d := hl.levels
  have h1 : ∀ t, t ≤ l.shift + c.B → levels c t ≤ d + 1 := fun t ht => le_add h0 ht
  have h2 : levels c r.shift ≤ d + 1 := Nat.le_succ_of_le hr.levels
  unfold Fc.concatMutL
  refine ends_ite (ends_any fun _ => ends_any fun _ => ends_ret h2) (ends_ite (ends_ret (Nat.le_succ_of_le h0)) (ends_any fun ro => ends_any fun o => ends_ite (ends_ite ?_ ?_) ?_))
  · exact ends_bind (ends_pushTailMut _ _ _ _ _ _) fun x hx => ends_any fun _ => ends_ret (h1 _ hx)
  · refine ends_bind (ends_mutableTail _ _ _) fun u hu => ends_any fun b => ends_bind (ends_attempt (P := LevelsLe c (d + 1)) ?_) fun x hx => ?_
    · refine ends_any fun _ => ends_ite (ends_ret ?_) (ends_guard (ends_any fun nt => ends_guard (ends_bind (ends_pushTailMut _ _ _ _ _ _) fun x hx => ends_ret (h1 _ (hu ▸ hx)))))
      show levels c u.shift ≤ _
      rw [hu]
      exact h1 _ (Nat.le_add_right _ _)
    · split
      · exact ends_ret (hx _ rfl)
      · refine ends_ret ?_
        show levels c u.shift ≤ _
        rw [hu]
        exact h1 _ (Nat.le_add_right _ _)
  · exact ends_bind (upto_trees hl hr o ro) fun x hx => ends_any fun _ => ends_any fun _ => ends_ret hx

theorem upto_concatMutR (hl : Upto c d l.shift) (hr : Upto c d r.shift) (share : Bool) (e : Nat) : Ends (Fc.concatMutR c E share e l r) (LevelsLe c (d + 1)) := by
  have h1 : levels c l.shift ≤ d + 1 := Nat.le_succ_of_le hl.levels
  have h2 : levels c r.shift ≤ d + 1 := Nat.le_succ_of_le hr.levels
  unfold Fc.concatMutR
  refine ends_ite (ends_any fun _ => ends_any fun _ => ends_ret h1) (ends_ite (ends_ret h2) (ends_any fun ro => ends_any fun o => ends_bind (P := fun x : Nat × Nat × Nat => levels c x.1 ≤ d + 1) (ends_ite ?_ ?_) fun x hx => ends_any fun _ => ends_ret hx))
  · exact depth_concatTail (dl := d) (dr := 0) hl.levels _ _ _
  · exact ends_bind (upto_trees hl hr o ro) fun x hx => ends_any fun _ => ends_ret hx

end

/-- the trees of programs -/
theorem CReached.upto {w : World T} {M : List (VecHeap.Spec.SObj T)} (hB : 2 ≤ c.B) (hE : E.Fresh) (hne : er ≠ et) (h : CReached c E X er et w M) {o : Obj} (ho : o ∈ w.objs) : Upto c (levels c o.v.shift) o.v.shift := by
  obtain ⟨G, hG⟩ := h.rel hB hE hne
  rw [hG.objs, List.mem_map] at ho
  obtain ⟨g, hg, rfl⟩ := ho
  obtain ⟨⟨pre, tl, _, _, _, _, _, hr⟩, hi⟩ := hG.sound.tree g hg
  have key : ∃ L, g.N.shift = c.BL + c.B * L := by
    rcases hr with ⟨_, _, h⟩ | ⟨L, h, _⟩
    · exact ⟨0, by omega⟩
    · exact ⟨L, h⟩
  obtain ⟨L, hL⟩ := key
  have hs : g.obj.v.shift = c.BL + L * c.B := by rw [hi.2, hL, Nat.mul_comm]
  refine ⟨L, ?_, hs⟩
  rw [hs]
  unfold levels
  rw [Nat.add_sub_cancel_left, Nat.mul_div_cancel _ (by omega)]
  omega

/-- **C55**: concatenation, in each of its forms, adds at most one level to those of the deeper of the two trees. -/
theorem C55_concat_depth (hB : 2 ≤ c.B) (hE : E.Fresh) (hne : er ≠ et) {w w' : World T} {M : List (VecHeap.Spec.SObj T)} (h : CReached c E X er et w M) {f : Option (Kind × Nat)} {b : Bin} {i j d : Nat}
    (hd : ∀ k ∈ [i, j], ∀ o, w.objs[k]? = some o → levels c o.v.shift ≤ d) (hw : ccall c E X er et f (.two b i j) w = .ok w' ()) :
    ∀ o ∈ w'.objs, (∃ o' ∈ w.objs, o.v = o'.v) ∨ levels c o.v.shift ≤ d + 1 := by
  let Q : List Obj → Prop := fun os => ∀ o ∈ os, (∃ o' ∈ w.objs, o.v = o'.v) ∨ levels c o.v.shift ≤ d + 1
  have hset : ∀ (os : List Obj) (k : Nat) (v : Vc), Q os → levels c v.shift ≤ d + 1 → Q (os.modify k fun h => { h with v := v }) := by
    intro os k v hq hv o ho
    obtain ⟨n, hn⟩ := List.mem_iff_getElem?.mp ho
    rw [List.getElem?_modify] at hn
    cases hg : os[n]? with
    | none => rw [hg] at hn; cases hn
    | some g =>
      rw [hg] at hn
      by_cases hk : k = n
      · rw [hk] at hn
        simp at hn
        subst hn
        exact .inr hv
      · simp [hk] at hn
        subst hn
        exact hq _ (List.mem_of_getElem? hg)
  have hpush : ∀ (os : List Obj) (g : Obj), Q os → levels c g.v.shift ≤ d + 1 → Q (os ++ [g]) := by
    intro os g hq hv o ho
    rcases List.mem_append.mp ho with ho | ho
    · exact hq o ho
    · rw [List.mem_singleton] at ho
      exact .inr (ho ▸ hv)
  have key : Takes (fun os => Q os ∧ os = w.objs) (stepBin c E b i j) (fun _ os => Q os) := by
    unfold stepBin
    refine takes_withObj (fun g => takes_withObj (fun g' => ?_) (fun os ho _ => ho.1.1) fun os _ ho _ _ => ho.1.1) (fun os ho _ => ho.1) fun os _ ho _ _ => ho.1
    intro w1 w2 u hp hw2
    obtain ⟨⟨⟨hQ, hos⟩, hg, _⟩, hg', _⟩ := hp
    rw [hos] at hg hg'
    have hu : ∀ k ∈ [i, j], ∀ o, w.objs[k]? = some o → Upto c d o.v.shift := by
      intro k hk o ho
      obtain ⟨n, h1, h2⟩ := h.upto hB hE hne (List.mem_of_getElem? ho)
      exact ⟨n, Nat.lt_of_lt_of_le h1 (hd k hk o ho), h2⟩
    have hl := hu i (by simp) g hg
    have hr := hu j (by simp) g' hg'
    refine (?_ : Takes Q _ (fun _ os => Q os)) w1 w2 u hQ hw2
    split
    · exact takes_bind (takes_lift (upto_concat hl hr)) fun v => takes_push fun os ho => hpush _ _ ho.1 ho.2
    · unfold changeBin
      split
      · exact takes_ret fun _ h => h
      · cases b with
        | plus => exact takes_ret fun _ h => h
        | appendTo =>
          refine takes_bind (takes_lift (upto_concatMutL hl hr false _)) fun x => takes_bind (takes_setVc (Q := fun _ os => Q os) fun os ho => hset _ _ _ ho.1 ho.2) fun _ w w' b hF e => ?_
          split at e
          · cases e
          · cases e; exact hF
        | prependTo => exact takes_bind (takes_lift (upto_concatMutR hl hr true _)) fun x => takes_setVc fun os ho => hset _ _ _ ho.1 ho.2
        | appendMove =>
          refine takes_bind (takes_lift (upto_concatMutL hl hr true _)) fun x => takes_bind (takes_setVc (Q := fun _ os => Q os) fun os ho => hset _ _ _ ho.1 ho.2) fun _ => ?_
          split
          · exact fun w w' b hF e => by cases e
          · refine takes_bind takes_any fun _ w w' b hF e => ?_
            cases e
            exact fun o ho => hF o (List.mem_of_mem_eraseIdx ho)
        | prependMove => exact takes_bind (takes_lift (upto_concatMutR hl hr false _)) fun x => takes_setVc fun os ho => hset _ _ _ ho.1 ho.2
  exact key { w with st := { w.st with fault := f } } w' () ⟨fun o ho => .inl ⟨o, ho, rfl⟩, rfl⟩ hw

end FlexHeap
