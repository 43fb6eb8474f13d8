import Verif.FlexHeap.FrameGc

/-!
# C54: `append` and `prepend` of transients under the collector, and other objects
-/

namespace FlexHeap
open Mm Rrb VecHeap

variable {T : Type} {c : Cfg} {E : Env Dat T} {X : Elem T} {er et : Nat} {w w' : World T} {M : List (VecHeap.Spec.SObj T)}

namespace Gc

/-- the transients a call may work on in place -/
def works : Bin → Nat → Nat → List Nat
  | .plus, _, _ => []
  | .appendTo, i, _ => [i]
  | .prependTo, _, j => [j]
  | .appendMove, i, j | .prependMove, i, j => [i, j]

/-- what a call does leaves the nodes as they are -/
def Wv (m0 : Mem Dat T) (S : Nat → Prop) (x : Ans T Unit) : Prop :=
  match x with
  | .ok w _ => Held m0 S w.st.mem
  | .thrown w => Held m0 S w.st.mem
  | .ub => True

variable {m0 : Mem Dat T} {S : Nat → Prop}

theorem wv_lift {β : Type} {x : HM T β} {f : β → WM T Unit} (hx : Sv m0 S x w.st) (hf : ∀ w' b, Held m0 S w'.st.mem → Wv m0 S (f b w')) : Wv m0 S ((lift x).bind f w) := by
  unfold Sv at hx
  unfold WM.bind lift
  cases h : x w.st with
  | ok s b => rw [h] at hx; exact hf _ _ hx
  | thrown s => rw [h] at hx; exact hx
  | ub => trivial

theorem wv_newTok {f : Nat → WM T Unit} (hs : Held m0 S w.st.mem) (hf : ∀ w' b, Held m0 S w'.st.mem → Wv m0 S (f b w')) : Wv m0 S ((newTok E).bind f w) := by
  have h : ∀ g : Unit → WM T Nat, ((lift (if E.gc then tick .alloc else M.ret ())).bind g).bind f w = (lift (if E.gc then tick .alloc else M.ret ())).bind (fun u => (g u).bind f) w := by
    intro g
    unfold WM.bind
    cases lift (if E.gc then tick .alloc else M.ret ()) w <;> rfl
  unfold newTok
  rw [h]
  refine wv_lift ?_ fun w' _ h' => hf _ _ h'
  exact fr_sv (Q := fun _ _ => True) (fr_ite (fun _ => fr_tick hs _) fun _ => fr_ret hs trivial)

theorem wv_change {b : Bin} {i j : Nat} {h h' : Obj} (hg : E.gc = true) (hE : E.Fresh) (hs : Held m0 S w.st.mem) (hi : i ∈ works b i j → S h.tok) (hj : j ∈ works b i j → S h'.tok) (hij : i ≠ j) :
    Wv m0 S (change c E b i j h h' w) := by
  have e0 : Ed S none := fun _ h => by cases h
  have e1 : ∀ {t}, S t → Ed S (some t) := fun h t e => by cases e; exact h
  unfold change
  rw [if_neg hij]
  cases b with
  | plus => exact hs
  | appendTo =>
    refine wv_newTok hs fun w1 t h1 => ?_
    refine wv_lift (sv_concatMutL hg hE (hi (by simp [works])) e0 h1) fun w2 x h2 => ?_
    unfold WM.bind setVc
    simp only
    split <;> exact h2
  | prependTo =>
    refine wv_newTok hs fun w1 t h1 => ?_
    exact wv_lift (sv_concatMutR hg hE e0 (hj (by simp [works])) h1) fun w2 x h2 => h2
  | appendMove =>
    refine wv_lift (sv_concatMutL hg hE (hi (by simp [works])) (e1 (hj (by simp [works]))) hs) fun w2 x h2 => ?_
    unfold WM.bind setVc
    simp only
    split <;> exact h2
  | prependMove =>
    exact wv_lift (sv_concatMutR hg hE (e1 (hi (by simp [works]))) (hj (by simp [works])) hs) fun w2 x h2 => h2

end Gc

/-- the nodes of an object have its token, or none that a transient may use -/
theorem node_tok {G : List (Gh T)} {next : Nat} {m : Mem Dat T} (hs : Sound c E (Flex.Inv c) er et m next G) {g : Gh T} (hg : g ∈ G) {r p : Nat} (hr : r = g.obj.v.root ∨ r = g.obj.v.tail) (hp : VecHeap.Below m r p) :
    ∃ x, m p = some x ∧ (E.gc = true → x.tok ∈ acts G → g.act = true ∧ x.tok = g.obj.tok) := by
  obtain ⟨A, J, gv, _, h⟩ := hs.inv
  have hL : ∃ x ∈ sRefs T er et ++ G.flatMap Gh.refs, x.ptr = r ∧ x.tok = g.t := by
    rcases hr with rfl | rfl
    · exact ⟨_, List.mem_append_right _ (List.mem_flatMap.mpr ⟨g, hg, by unfold Gh.refs refs; exact List.mem_cons_self ..⟩), rfl, rfl⟩
    · exact ⟨_, List.mem_append_right _ (List.mem_flatMap.mpr ⟨g, hg, by unfold Gh.refs refs; exact List.mem_cons_of_mem _ (List.mem_cons_self ..)⟩), rfl, rfl⟩
  obtain ⟨x, hx, hxp, hxt⟩ := hL
  have key : ∃ y, m p = some y ∧ ((toks E.gc next (acts G)).live y.tok → y.tok = g.t) := by
    have hre : ∀ q, VecHeap.Below m r q → ∃ y, m q = some y ∧ q ∈ A := fun q hq => by
      have := h.reach (⟨x, hx, by rw [hxp]; exact below_from.mp hq⟩ : Reach _ m _ q)
      obtain ⟨y, hy⟩ := h.live this
      exact ⟨y, hy, this⟩
    induction hp with
    | here =>
      obtain ⟨y, hy, _⟩ := hre r .here
      exact ⟨y, hy, fun hl => by rw [← hxt]; exact h.refTok x hx y (by rw [hxp]; exact hy) hl⟩
    | next hb hc ho ih =>
      obtain ⟨y, hy, _⟩ := hre _ (.next hb hc ho)
      obtain ⟨z, hz, hz2⟩ := ih
      rw [hc] at hz
      cases hz
      refine ⟨y, hy, fun hl => ?_⟩
      obtain ⟨_, _, ha⟩ := hre _ hb
      have := h.outTok _ ha _ hc _ ho _ hy hl
      rw [this] at hl ⊢
      exact hz2 hl
  obtain ⟨y, hy, hy2⟩ := key
  refine ⟨y, hy, fun hgc ha => ?_⟩
  have h0 := hs.lt _ ha
  have := hy2 ⟨hgc, h0.1, .inl ha⟩
  have ht := hs.tok g hg (by omega)
  exact ⟨ht.1, by rw [this]; exact ht.2⟩

theorem act_of {gc : Bool} {G : List (Gh T)} {i : Nat} {s : VecHeap.Spec.SObj T} {o : Obj} (hl : List.Forall₂ (Local gc) G M) (hgc : gc = true) (ho : (G.map Gh.obj)[i]? = some o) (hi : M[i]? = some s) (hk : s.kd = .transient) :
    ∃ g, G[i]? = some g ∧ g.act = true ∧ g.obj = o := by
  rw [List.getElem?_map] at ho
  obtain ⟨g, hg, rfl⟩ := Option.map_eq_some_iff.mp ho
  refine ⟨g, hg, ?_, rfl⟩
  obtain ⟨h1, rfl⟩ := List.getElem?_eq_some_iff.mp hg
  obtain ⟨h2, rfl⟩ := List.getElem?_eq_some_iff.mp hi
  obtain ⟨_, h2, _⟩ := (List.forall₂_iff_get.mp hl).2 i h1 h2
  change (G[i]).act = (gc && decide ((M[i]).kd = .transient)) at h2
  rw [h2, hgc, hk]
  rfl

theorem acts_inj : ∀ {G : List (Gh T)} {i k : Nat} {g g' : Gh T}, (acts G).Nodup → G[i]? = some g → G[k]? = some g' → g.act = true → g'.act = true → g.obj.tok = g'.obj.tok → i = k
  | [], _, _, _, _, _, h, _, _, _, _ => by cases h
  | a :: G, 0, 0, _, _, _, _, _, _, _, _ => rfl
  | a :: G, 0, k + 1, g, g', hn, h, h', ha, ha', ht => by
    cases h
    have h2 : acts (a :: G) = a.obj.tok :: acts G := by unfold acts; rw [List.filter_cons_of_pos ha]; rfl
    rw [h2] at hn
    exact absurd (by rw [ht]; exact List.mem_map.mpr ⟨g', List.mem_filter.mpr ⟨List.mem_of_getElem? h', ha'⟩, rfl⟩) (List.nodup_cons.mp hn).1
  | a :: G, i + 1, 0, g, g', hn, h, h', ha, ha', ht => by
    cases h'
    have h2 : acts (a :: G) = a.obj.tok :: acts G := by unfold acts; rw [List.filter_cons_of_pos ha']; rfl
    rw [h2] at hn
    exact absurd (by rw [← ht]; exact List.mem_map.mpr ⟨g, List.mem_filter.mpr ⟨List.mem_of_getElem? h, ha⟩, rfl⟩) (List.nodup_cons.mp hn).1
  | a :: G, i + 1, k + 1, g, g', hn, h, h', ha, ha', ht => by
    have hn' : (acts G).Nodup := by
      unfold acts at hn ⊢
      cases hx : a.act with
      | true => rw [List.filter_cons_of_pos hx] at hn; exact (List.nodup_cons.mp hn).2
      | false => rwa [List.filter_cons_of_neg (by rw [hx]; simp)] at hn
    rw [acts_inj hn' h h' ha ha' ht]

/-- **C54**, partial: in a state that a program without such calls has reached.  Under the collector, when `append` or `prepend` of a transient with another transient returns or throws, the nodes of all
other objects are as they were: those made with `persistent()` from these transients, those these transients were made from, and
the second transient if it was not moved from. -/
theorem C54_gc_others_unchanged_partial (hB : 2 ≤ c.B) (hE : E.Fresh) (hne : er ≠ et) (hg : E.gc = true) (h : CReached c E X er et w M) {f : Option (Kind × Nat)} {b : Bin} {i j k : Nat} {si sj : VecHeap.Spec.SObj T} {o : Obj}
    (hi : M[i]? = some si) (hsi : si.kd = .transient) (hj : M[j]? = some sj) (hsj : sj.kd = .transient) (hij : i ≠ j)
    (hw : Gc.call c E f b i j w = .ok w' () ∨ Gc.call c E f b i j w = .thrown w') (hk : w.objs[k]? = some o) (hn : k ∉ Gc.works b i j) :
    (∀ p, NodeOf w.st.mem o.v p → ∃ cl, w.st.mem p = some cl ∧ w'.st.mem p = some cl) ∧ contents c w'.st.mem o.v = contents c w.st.mem o.v := by
  obtain ⟨G, hG⟩ := h.rel hB hE hne
  have hlen : w.objs.length = M.length := by rw [hG.objs, List.length_map, hG.loc.length_eq]
  obtain ⟨oi, hoi⟩ : ∃ oi, w.objs[i]? = some oi := ⟨_, List.getElem?_eq_getElem (by rw [hlen]; exact (List.getElem?_eq_some_iff.mp hi).1)⟩
  obtain ⟨oj, hoj⟩ : ∃ oj, w.objs[j]? = some oj := ⟨_, List.getElem?_eq_getElem (by rw [hlen]; exact (List.getElem?_eq_some_iff.mp hj).1)⟩
  obtain ⟨gi, hgi, hai, rfl⟩ := act_of hG.loc hg (by rw [← hG.objs]; exact hoi) hi hsi
  obtain ⟨gj, hgj, haj, rfl⟩ := act_of hG.loc hg (by rw [← hG.objs]; exact hoj) hj hsj
  obtain ⟨gk, hgk, rfl⟩ : ∃ g, G[k]? = some g ∧ g.obj = o := by
    rw [hG.objs, List.getElem?_map] at hk
    obtain ⟨g, h1, h2⟩ := Option.map_eq_some_iff.mp hk
    exact ⟨g, h1, h2⟩
  have mem : ∀ {n : Nat} {g : Gh T}, G[n]? = some g → g.act = true → g.obj.tok ∈ acts G := fun h ha => List.mem_map.mpr ⟨_, List.mem_filter.mpr ⟨List.mem_of_getElem? h, ha⟩, rfl⟩
  let S : Nat → Prop := fun t => (i ∈ Gc.works b i j ∧ t = gi.obj.tok) ∨ (j ∈ Gc.works b i j ∧ t = gj.obj.tok)
  have hm : Held w.st.mem S w'.st.mem := by
    have h0 : Held w.st.mem S w.st.mem := by
      refine ⟨?_, fun _ _ => rfl⟩
      obtain ⟨A, J, _, _, hA⟩ := hG.sound.inv
      exact ⟨_, fun p hp => (hA.alloc p).mp hp⟩
    have hc : Gc.Wv w.st.mem S (Gc.call c E f b i j w) := by
      unfold Gc.call withObj
      simp only [hoi, hoj]
      split
      · split
        · exact Gc.wv_change hg hE h0 (fun h => .inl ⟨h, rfl⟩) (fun h => .inr ⟨h, rfl⟩) hij
        · exact h0
      · exact h0
    rcases hw with hw | hw <;> rw [hw] at hc <;> exact hc
  have hkeep : ∀ r, r = gk.obj.v.root ∨ r = gk.obj.v.tail → ∀ p, VecHeap.Below w.st.mem r p → ∃ cl, w.st.mem p = some cl ∧ w'.st.mem p = some cl := by
    intro r hr p hp
    obtain ⟨x, hx, ht⟩ := node_tok hG.sound (List.mem_of_getElem? hgk) hr hp
    refine ⟨x, hx, ?_⟩
    rw [hm.2 p ⟨x, hx, fun hS => ?_⟩, hx]
    rcases hS with ⟨h1, h2⟩ | ⟨h1, h2⟩
    · obtain ⟨h3, h4⟩ := ht hg (by rw [h2]; exact mem hgi hai)
      exact hn (acts_inj hG.sound.nodup hgi hgk hai h3 (h2.symm.trans h4) ▸ h1)
    · obtain ⟨h3, h4⟩ := ht hg (by rw [h2]; exact mem hgj haj)
      exact hn (acts_inj hG.sound.nodup hgj hgk haj h3 (h2.symm.trans h4) ▸ h1)
  have same : ∀ r, r = gk.obj.v.root ∨ r = gk.obj.v.tail → ∀ p, VecHeap.Below w.st.mem r p → ∃ cl cl', w.st.mem p = some cl ∧ w'.st.mem p = some cl' ∧ Same cl cl' := fun r hr p hp => by
    obtain ⟨x, h1, h2⟩ := hkeep r hr p hp
    exact ⟨x, x, h1, h2, .rfl'⟩
  refine ⟨fun p hp => hp.elim (hkeep _ (.inl rfl) p) (hkeep _ (.inr rfl) p), ?_⟩
  unfold contents
  rw [flat_congr _ _ (same _ (.inl rfl)), flat_congr _ _ (same _ (.inr rfl))]

end FlexHeap
