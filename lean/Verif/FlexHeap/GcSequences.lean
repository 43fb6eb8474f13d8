import Verif.FlexHeap.OwnedPlus

/-!
# C54 for calls that follow each other
-/

namespace FlexHeap
open Mm Rrb VecHeap
open VecHeap.Spec (SKd)

variable {T β δ : Type} {c : Cfg} {E : Env Dat T} {X : Elem T} {er et : Nat} {w w' : World T} {F : List Nat} {G : List OK} {i j k t : Nat} {g : OK} {S : Nat → Prop} {K : List SKd} {m0 : Mem Dat T} {th : Prop} {v : Vc} {o : Obj}

/-- as `Gc.Wv`; if `th`, also when it throws -/
def Wx (th : Prop) (m0 : Mem Dat T) (S : Nat → Prop) (x : Ans T Unit) : Prop :=
  match x with
  | .ok w _ => Held m0 S w.st.mem
  | .thrown w => th → Held m0 S w.st.mem
  | .ub => True

theorem wx_hx {x : HM T β} {f : β → WM T Unit} {Q : β → Prop} (hx : Hx th m0 S x w.st Q) (hf : ∀ w' b, Held m0 S w'.st.mem → Q b → Wx th m0 S (f b w')) : Wx th m0 S ((lift x).bind f w) := by
  unfold Hx at hx
  unfold WM.bind lift
  cases h : x w.st with
  | ok s b => rw [h] at hx; exact hf _ _ hx.1 hx.2
  | thrown s => rw [h] at hx; exact hx
  | ub => trivial

theorem wx_last {x : HM T Unit} {Q : Unit → Prop} (hx : Hx th m0 S x w.st Q) : Wx th m0 S (lift x w) := by
  unfold Hx at hx
  unfold lift
  cases h : x w.st with
  | ok s b => rw [h] at hx; exact hx.1
  | thrown s => rw [h] at hx; exact hx
  | ub => trivial

theorem wx_fr {x : HM T β} {f : β → WM T Unit} {Q : Mem Dat T → β → Prop} (hx : Fr m0 S x w.st Q) (hf : ∀ w' b, Held m0 S w'.st.mem → Wx th m0 S (f b w')) : Wx th m0 S ((lift x).bind f w) :=
  wx_hx (Q := fun _ => True) (fx_hx (fx hx) fun _ _ _ => trivial) fun w' b h _ => hf w' b h

theorem wx_ro {x : HM T β} {f : β → WM T Unit} (hs : Held m0 S w.st.mem) (hx : Ro x) (hf : ∀ w' b, Held m0 S w'.st.mem → Wx th m0 S (f b w')) : Wx th m0 S ((lift x).bind f w) := wx_fr (fr_ro hs hx) hf

theorem wx_owner {kd : VecHeap.Kd} {f : Nat → WM T Unit} (hs : Held m0 S w.st.mem) (hf : ∀ w' t, Held m0 S w'.st.mem → (kd = .transient → t = w.next) → Wx th m0 S (f t w')) : Wx th m0 S ((ownerFor E kd).bind f w) := by
  cases kd with
  | value => exact hf w 0 hs fun h => by cases h
  | transient =>
    have h : ∀ g : Unit → WM T Nat, ((lift (if E.gc then tick .alloc else M.ret ())).bind g).bind f w = (lift (if E.gc then tick .alloc else M.ret ())).bind (fun u => (g u).bind f) w := by
      intro g
      unfold WM.bind
      cases lift (if E.gc then tick .alloc else M.ret ()) w <;> rfl
    unfold ownerFor newTok
    rw [h]
    have hx := fr_ite (P := E.gc = true) (x := tick .alloc) (y := M.ret ()) (s := w.st) (fun _ => fr_tick hs _) fun _ => fr_ret hs trivial
    unfold Fr at hx
    unfold WM.bind lift
    cases h : (if E.gc then tick .alloc else M.ret () : HM T Unit) w.st with
    | ok s b => rw [h] at hx; exact hf _ _ hx.1 fun _ => rfl
    | thrown s => rw [h] at hx; exact fun _ => hx
    | ub => trivial

theorem wx_with {kd : Option VecHeap.Kd} {f : Obj → WM T Unit} (hs : Held m0 S w.st.mem) (hf : ∀ h, w.objs[i]? = some h → (kd = none ∨ kd = some h.kd) → Wx th m0 S (f h w)) : Wx th m0 S (withObj i kd f w) := by
  unfold withObj
  cases hi : w.objs[i]? with
  | none => exact hs
  | some h =>
    simp only
    split
    · exact hf h hi ‹_›
    · exact hs

/-- the transient a call works on in place -/
def workOn : Cmd T (FlexOp T) → Option Nat
  | .applyMut i _ => some i
  | _ => none

/-- `drop` in place; nothing is claimed when it throws -/
def dropsInPlace : Cmd T (FlexOp T) → Bool
  | .applyMut _ o => isDrop o
  | _ => false

theorem wx_step {x : Cmd T (FlexOp T)} (hg : E.gc = true) (hE : E.Fresh) (hs : Held m0 S w.st.mem) (hn : S w.next) (hi : ∀ i h, workOn x = some i → w.objs[i]? = some h → h.kd = .transient → S h.tok) :
    Wx (dropsInPlace x = false) m0 S (step c (flexKit T c X) E er et x w) := by
  cases x with
  | new kd => exact wx_owner hs fun _ _ h1 _ => wx_ro h1 (ro_empty hg) fun _ _ h2 => h2
  | ofRange xs => exact wx_owner hs fun _ t h1 ht => wx_ro h1 (ro_empty hg) fun _ _ h2 => wx_fr (fr_pushes hg hE (by rw [ht rfl]; exact hn) xs _ _ h2) fun _ _ h3 => h3
  | copy i => exact wx_with hs fun _ _ _ => wx_owner hs fun _ _ h1 _ => wx_owner h1 fun _ _ h2 _ => wx_ro h2 (ro_bind (ro_share hg) fun _ => ro_ret _) fun _ _ h3 => h3
  | move i => exact wx_with hs fun _ _ _ => wx_ro hs (ro_empty hg) fun _ _ h1 => h1
  | assign i j =>
    refine wx_with hs fun _ _ _ => wx_with hs fun _ _ _ => wx_owner hs fun _ _ h1 _ => wx_owner h1 fun _ _ h2 _ => wx_ro h2 (ro_bind (ro_share hg) fun _ => ro_ret _) fun w3 x h3 => ?_
    exact wx_last (Q := fun _ => True) (w := { w3 with objs := w3.objs.modify i fun h => { h with v := x } }) (hd_hx (hd_ro h3 (ro_drop hg)))
  | moveAssign i j => exact wx_with hs fun _ _ _ => wx_with hs fun _ _ _ => hs
  | destroy i => exact wx_with hs fun _ _ _ => wx_ro hs (ro_drop hg) fun _ _ h1 => h1
  | transient i => exact wx_with hs fun _ _ _ => wx_owner hs fun _ _ h1 _ => wx_ro h1 (ro_bind (ro_share hg) fun _ => ro_ret _) fun _ _ h3 => h3
  | transientMove i => exact wx_with hs fun _ _ _ => wx_ro hs (ro_empty hg) fun _ _ h1 => wx_owner h1 fun _ _ h2 _ => h2
  | persistent i => exact wx_with hs fun _ _ _ => wx_owner hs fun _ _ h1 _ => wx_ro h1 (ro_bind (ro_share hg) fun _ => ro_ret _) fun _ _ h3 => h3
  | persistentMove i => exact wx_with hs fun _ _ _ => wx_ro hs (ro_empty hg) fun _ _ h1 => h1
  | apply i o => exact wx_with hs fun _ _ _ => wx_hx (hx_apply hg hE hs) fun _ _ h1 _ => h1
  | applyMove i o =>
    refine wx_with hs fun _ _ _ => ?_
    rw [if_pos hg]
    exact wx_hx (hx_apply hg hE hs) fun _ _ h1 _ => h1
  | applyMut i o =>
    refine wx_with hs fun h hh hkd => wx_hx (hx_applyMut hg hE (hi i h rfl hh (hkd.elim (fun h => by cases h) fun h => by injection h with h; exact h.symm)) hs) fun w1 r h1 hr => ?_
    obtain ⟨v, r⟩ := r
    cases r with
    | none => exact h1
    | some r => exact wx_last (w := { w1 with objs := w1.objs.modify i fun h => { h with v := v } }) (hd_hx (hd_applyFn h1 (hr _ _ _ rfl)))

/-! ### Programs -/

/-- What these calls do when they throw: `w'` has the objects of `w`. -/
structure Th (w w' : World T) : Prop where
  objs : w'.objs = w.objs
  next : w.next ≤ w'.next

def ThW (x : WM T β) : Prop := ∀ w w', x w = .thrown w' → Th w w'

def ShW (x : WM T β) : Prop := ThW x ∧ ∀ w w' b, x w = .ok w' b → Th w w'

theorem th_bind {x : WM T β} {f : β → WM T δ} (hx : ShW x) (hf : ∀ b, ThW (f b)) : ThW (x.bind f) := by
  intro w w' h
  unfold WM.bind at h
  cases h1 : x w with
  | ok w1 b =>
    rw [h1] at h
    have h2 := hx.2 _ _ _ h1
    have h3 := hf b _ _ h
    exact ⟨h3.objs.trans h2.objs, Nat.le_trans h2.next h3.next⟩
  | thrown w1 => rw [h1] at h; cases h; exact hx.1 _ _ h1
  | ub => rw [h1] at h; cases h

theorem sh_lift {x : HM T β} : ShW (lift x) := by
  refine ⟨fun w w' h => ?_, fun w w' b h => ?_⟩ <;> unfold lift at h <;> cases h1 : x w.st <;> rw [h1] at h <;> cases h <;> exact ⟨rfl, Nat.le_refl _⟩

theorem th_never {x : WM T β} (h : ∀ w w', x w ≠ .thrown w') : ThW x := fun w w' hw => absurd hw (h w w')

theorem th_push {o : Obj} : ThW (push (T := T) o) := th_never fun _ _ h => by cases h

theorem th_with {kd : Option VecHeap.Kd} {f : Obj → WM T Unit} (hf : ∀ h, ThW (f h)) : ThW (withObj i kd f) := by
  intro w w' h
  unfold withObj at h
  split at h
  · split at h
    · exact hf _ _ _ h
    · cases h
  · cases h

theorem sh_owner {kd : VecHeap.Kd} : ShW (T := T) (ownerFor E kd) := by
  cases kd with
  | value => exact ⟨fun _ _ h => (by cases h), fun _ _ _ h => by cases h; exact ⟨rfl, Nat.le_refl _⟩⟩
  | transient =>
    refine ⟨th_bind sh_lift fun _ => th_never fun _ _ h => (by cases h), fun w w' b h => ?_⟩
    obtain ⟨w1, _, h1, h2⟩ := bind_ok h
    have h3 := sh_lift.2 _ _ _ h1
    cases h2
    exact ⟨h3.objs, Nat.le_succ_of_le h3.next⟩

/-- nothing is allocated -/
theorem copy_never {s s' : St Dat T} (hg : E.gc = true) : v.copy E s ≠ .thrown s' := by
  have hi : ∀ p (s s' : St Dat T), inc E p s ≠ .thrown s' := by
    intro p s s' h
    unfold inc M.bind cell at h
    cases h1 : s.mem p with
    | none => rw [h1] at h; cases h
    | some x => rw [h1] at h; simp only [hg, if_true] at h; cases h
  intro h
  unfold Vc.copy Vc.share M.bind at h
  cases h1 : inc E v.root s with
  | thrown s1 => exact hi _ _ _ h1
  | ub => rw [h1] at h; cases h
  | ok s1 u =>
    rw [h1] at h
    cases h2 : inc E v.tail s1 with
    | thrown s2 => exact hi _ _ _ h2
    | ub => simp only [h2] at h; cases h
    | ok s2 u => simp only [h2] at h; cases h

theorem never_bind {x : WM T β} {f : β → WM T δ} (hx : ∀ w w', x w ≠ .thrown w') (hf : ∀ b w w', f b w ≠ .thrown w') (w w' : World T) : x.bind f w ≠ .thrown w' := by
  intro h
  unfold WM.bind at h
  cases h1 : x w with
  | ok w1 b => rw [h1] at h; exact hf _ _ _ h
  | thrown w1 => exact hx _ _ h1
  | ub => rw [h1] at h; cases h

theorem never_copy (hg : E.gc = true) (w w' : World T) : lift (v.copy E) w ≠ .thrown w' := by
  intro h
  unfold lift at h
  cases h1 : v.copy E w.st with
  | ok s b => rw [h1] at h; cases h
  | thrown s => exact copy_never hg h1
  | ub => rw [h1] at h; cases h

/-- calls that change no object -/
def clean : Cmd T (FlexOp T) → Bool
  | .new _ | .ofRange _ | .copy _ | .transient _ | .persistent _ | .apply _ _ | .applyMove _ _ => true
  | _ => false

theorem th_step {x : Cmd T (FlexOp T)} (hg : E.gc = true) (hx : clean x = true) : ThW (step c (flexKit T c X) E er et x) := by
  have tail : ∀ (i t : Nat) (v : Vc) (g : Vc → Obj) (w w' : World T), ((setOwner i t).bind fun _ => (lift (v.copy E)).bind fun x => push (g x)) w ≠ .thrown w' := fun i t v g =>
    never_bind (fun _ _ h => by cases h) fun _ => never_bind (never_copy hg) fun _ _ _ h => by cases h
  cases x with
  | new kd => exact th_bind sh_owner fun _ => th_bind sh_lift fun _ => th_push
  | ofRange xs => exact th_bind sh_owner fun _ => th_bind sh_lift fun _ => th_bind sh_lift fun _ => th_push
  | copy i => exact th_with fun _ => th_bind sh_owner fun _ => th_bind sh_owner fun _ => th_never (tail _ _ _ _)
  | transient i => exact th_with fun _ => th_bind sh_owner fun _ => th_bind sh_lift fun _ => th_push
  | persistent i => exact th_with fun _ => th_bind sh_owner fun _ => th_never (tail _ _ _ _)
  | apply i o => exact th_with fun _ => th_bind sh_lift fun _ => th_push
  | applyMove i o =>
    refine th_with fun _ => ?_
    rw [if_pos hg]
    exact th_bind sh_lift fun _ => th_push
  | _ => cases hx

/-- Nobody has tokens that are made later. -/
theorem own_later (h : OwnW er et w [] G) (ht : Th w w') (hH : Held w.st.mem (fun t => t = w.next) w'.st.mem) : OwnW er et w' [] G := by
  have hl : ∀ t, LiveT w'.next [] G t → LiveT w.next [] G t := fun t h => h.imp_left fun h => Nat.le_trans ht.next h
  have hn : ∀ t, ¬ LiveT w.next [] G t → t ≠ w.next := fun t h he => h (.inl (Nat.le_of_eq he.symm))
  have h1 := h.2.keep hH (fun k g hk => vgd_mono (h.2.obj k g hk) fun t => by
    rintro (ht | ⟨h1, rfl⟩)
    · exact hn t ht
    · exact Nat.ne_of_lt (h.2.tok k g hk h1).2) (h.2.stat.1.mono hn) (h.2.stat.2.mono hn)
  exact ⟨ht.objs.trans h.1, ⟨h1.fin, Nat.lt_of_lt_of_le h1.pos ht.next, fun _ h => (by cases h), h1.kd, h1.inj, fun k g hk hg => ⟨(h1.tok k g hk hg).1, Nat.lt_of_lt_of_le (h1.tok k g hk hg).2 ht.next⟩,
    fun k g hk => vgd_mono (h1.obj k g hk) fun t => Or.imp_left (mt (hl t)), h1.stat.1.mono fun t => mt (hl t), h1.stat.2.mono fun t => mt (hl t)⟩⟩

theorem own_threw {f : Option (Kind × Nat)} {x : Cmd T (FlexOp T)} (hg : E.gc = true) (hE : E.Fresh) (h : Own er et w K) (hx : clean x = true) (hw : VecHeap.call c (flexKit T c X) E er et f x w = .thrown w') : Own er et w' K := by
  obtain ⟨G, rfl, hG⟩ := h
  have h1 := wx_step (c := c) (E := E) (X := X) (er := er) (et := et) (x := x) (w := { w with st := { w.st with fault := f } }) (m0 := w.st.mem) (S := fun t => t = w.next) hg hE ⟨hG.2.fin, fun _ _ => rfl⟩ rfl
    (fun i h hi _ _ => by cases x <;> first | (cases hx; done) | (cases hi; done))
  change Wx _ _ _ (VecHeap.call c (flexKit T c X) E er et f x w) at h1
  rw [hw] at h1
  have h2 := th_step (c := c) (X := X) (er := er) (et := et) hg hx { w with st := { w.st with fault := f } } w' hw
  have h3 : Th w w' := ⟨h2.objs, h2.next⟩
  exact ⟨G, rfl, own_later (w := w) hG h3 (h1 (by cases x <;> first | rfl | cases hx))⟩

/-- States that calls of one object, joins of transients and concatenations of values reach under the collector, after any program
without such joins.  `K` are the kinds of the objects.  After the first join, programs go on after a call that threw only if it is
one of those that change no object. -/
inductive GReached (c : Cfg) (E : Env Dat T) (X : Elem T) (er et : Nat) : World T → List SKd → Prop
  | prog {w : World T} {M : List (VecHeap.Spec.SObj T)} : CReached c E X er et w M → GReached c E X er et w (M.map (·.kd))
  | one {w w' : World T} {K : List SKd} {f : Option (Kind × Nat)} {x : Cmd T (FlexOp T)} : GReached c E X er et w K → KAllowed K x → VecHeap.call c (flexKit T c X) E er et f x w = .ok w' () → GReached c E X er et w' (kstep K x)
  | threw {w w' : World T} {K : List SKd} {f : Option (Kind × Nat)} {x : Cmd T (FlexOp T)} : GReached c E X er et w K → clean x = true → VecHeap.call c (flexKit T c X) E er et f x w = .thrown w' → GReached c E X er et w' K
  | join {w w' : World T} {K : List SKd} {f : Option (Kind × Nat)} {b : Bin} {i j : Nat} : GReached c E X er et w K → K[i]? = some .transient → K[j]? = some .transient → i ≠ j → Gc.call c E f b i j w = .ok w' () →
      GReached c E X er et w' (Gc.kinds b i j K)
  | plus {w w' : World T} {K : List SKd} {f : Option (Kind × Nat)} {b : Bin} {i j : Nat} : GReached c E X er et w K → K[i]? = some .value → K[j]? = some .value → b ≠ .prependMove → ccall c E X er et f (.two b i j) w = .ok w' () →
      GReached c E X er et w' (K ++ [.value])
  | plusThrew {w w' : World T} {K : List SKd} {f : Option (Kind × Nat)} {b : Bin} {i j : Nat} : GReached c E X er et w K → K[i]? = some .value → K[j]? = some .value → b ≠ .prependMove → ccall c E X er et f (.two b i j) w = .thrown w' →
      GReached c E X er et w' K

theorem GReached.own (hB : 2 ≤ c.B) (hE : E.Fresh) (hne : er ≠ et) (hg : E.gc = true) (h : GReached c E X er et w K) : Own er et w K := by
  induction h with
  | @prog w M h =>
    obtain ⟨G, hG⟩ := h.rel hB hE hne
    have h1 := OwnG.of_sound hg hG.sound hG.loc
    have hl := hG.loc.length_eq
    refine ⟨_, ?_, ?_, h1⟩
    · rw [List.map_zipWith]
      apply List.ext_getElem (by simp [hl])
      intro n h1 h2
      simp
    · rw [hG.objs, List.map_zipWith]
      apply List.ext_getElem (by simp [hl])
      intro n h1 h2
      simp
  | one _ hx hw ih => exact own_step hg hE ih hx hw
  | threw _ hx hw ih => exact own_threw hg hE ih hx hw
  | join _ hi hj hij hw ih => exact Gc.own_join hg hE ih hi hj hij hw
  | plus _ hi hj hb hw ih => exact own_plus hg hE ih hi hj hb hw
  | plusThrew _ hi hj hb hw ih => exact plus_threw hg hE ih hi hj hb hw

/-- nodes without these tokens stay -/
theorem kept_of {S : Nat → Prop} (hH : Held w.st.mem S w'.st.mem) (hv : Gc.VGd (fun t => ¬ S t) w.st.mem v) :
    (∀ p, NodeOf w.st.mem v p → ∃ cl, w.st.mem p = some cl ∧ w'.st.mem p = some cl) ∧ contents c w'.st.mem v = contents c w.st.mem v := by
  have hkeep : ∀ r, r = v.root ∨ r = v.tail → ∀ p, VecHeap.Below w.st.mem r p → ∃ cl, w.st.mem p = some cl ∧ w'.st.mem p = some cl := by
    intro r hr p hp
    obtain ⟨x, hx, ht⟩ : ∃ x, w.st.mem p = some x ∧ ¬ S x.tok := by
      rcases hr with rfl | rfl
      · exact hv.1 p hp
      · exact hv.2 p hp
    exact ⟨x, hx, by rw [hH.2 p ⟨x, hx, ht⟩, hx]⟩
  have same : ∀ r, r = v.root ∨ r = v.tail → ∀ p, VecHeap.Below w.st.mem r p → ∃ cl cl', w.st.mem p = some cl ∧ w'.st.mem p = some cl' ∧ Same cl cl' := fun r hr p hp => by
    obtain ⟨x, h1, h2⟩ := hkeep r hr p hp
    exact ⟨x, x, h1, h2, .rfl'⟩
  refine ⟨fun p hp => hp.elim (hkeep _ (.inl rfl) p) (hkeep _ (.inr rfl) p), ?_⟩
  unfold contents
  rw [flat_congr _ _ (same _ (.inl rfl)), flat_congr _ _ (same _ (.inr rfl))]

/-- **C54**: joins of transients.  Under the collector, when `append` or `prepend` of a transient with another transient returns or
throws, the nodes of all other objects are as they were: those made with `persistent()` from these transients, those these
transients were made from, and the second transient if it was not moved from.  There may have been such calls before. -/
theorem C54_gc_joins_partial (hB : 2 ≤ c.B) (hE : E.Fresh) (hne : er ≠ et) (hg : E.gc = true) (h : GReached c E X er et w K) {f : Option (Kind × Nat)} {b : Bin} (hi : K[i]? = some .transient) (hj : K[j]? = some .transient)
    (hij : i ≠ j) (hw : Gc.call c E f b i j w = .ok w' () ∨ Gc.call c E f b i j w = .thrown w') (hk : w.objs[k]? = some o) (hn : k ∉ Gc.works b i j) :
    (∀ p, NodeOf w.st.mem o.v p → ∃ cl, w.st.mem p = some cl ∧ w'.st.mem p = some cl) ∧ contents c w'.st.mem o.v = contents c w.st.mem o.v := by
  obtain ⟨G, rfl, hG⟩ := h.own hB hE hne hg
  obtain ⟨gi, hgi, hki⟩ := Option.map_eq_some_iff.mp ((List.getElem?_map ..).symm.trans hi)
  obtain ⟨gj, hgj, hkj⟩ := Option.map_eq_some_iff.mp ((List.getElem?_map ..).symm.trans hj)
  obtain ⟨sk, hgk⟩ := hG.of_get hk
  refine kept_of (S := fun t => (i ∈ Gc.works b i j ∧ t = gi.1.tok) ∨ (j ∈ Gc.works b i j ∧ t = gj.1.tok)) ?_ (vgd_mono (hG.2.obj k _ hgk) fun t ht => ?_)
  · have h0 : Held w.st.mem (fun t => (i ∈ Gc.works b i j ∧ t = gi.1.tok) ∨ (j ∈ Gc.works b i j ∧ t = gj.1.tok)) w.st.mem := ⟨hG.2.fin, fun _ _ => rfl⟩
    have hc : Gc.Wv w.st.mem (fun t => (i ∈ Gc.works b i j ∧ t = gi.1.tok) ∨ (j ∈ Gc.works b i j ∧ t = gj.1.tok)) (Gc.call c E f b i j w) := by
      unfold Gc.call withObj
      simp only [hG.get hgi, hG.get hgj]
      split
      · split
        · exact Gc.wv_change hg hE h0 (fun h => .inl ⟨h, rfl⟩) (fun h => .inr ⟨h, rfl⟩) hij
        · exact h0
      · exact h0
    rcases hw with hw | hw <;> rw [hw] at hc <;> exact hc
  · rintro (⟨h1, h2⟩ | ⟨h1, h2⟩)
    · exact hG.2.other hgi hki hgk (fun h => hn (h ▸ h1)) ht h2
    · exact hG.2.other hgj hkj hgk (fun h => hn (h ▸ h1)) ht h2

/-- **C54**: calls of one object that follow such calls.  Operations in place change nodes of their transient only, other calls
change no node.  Nothing is said when `drop` in place throws. -/
theorem C54_gc_calls_partial (hB : 2 ≤ c.B) (hE : E.Fresh) (hne : er ≠ et) (hg : E.gc = true) (h : GReached c E X er et w K) {f : Option (Kind × Nat)} {x : Cmd T (FlexOp T)} (hx : KAllowed K x)
    (hw : VecHeap.call c (flexKit T c X) E er et f x w = .ok w' () ∨ (VecHeap.call c (flexKit T c X) E er et f x w = .thrown w' ∧ dropsInPlace x = false)) (hk : w.objs[k]? = some o) (hn : workOn x ≠ some k) :
    (∀ p, NodeOf w.st.mem o.v p → ∃ cl, w.st.mem p = some cl ∧ w'.st.mem p = some cl) ∧ contents c w'.st.mem o.v = contents c w.st.mem o.v := by
  obtain ⟨G, rfl, hG⟩ := h.own hB hE hne hg
  obtain ⟨sk, hgk⟩ := hG.of_get hk
  have h0 : ∀ S, Held w.st.mem S w.st.mem := fun S => ⟨hG.2.fin, fun _ _ => rfl⟩
  have key : ∀ S, Wx (dropsInPlace x = false) w.st.mem S (VecHeap.call c (flexKit T c X) E er et f x w) → Held w.st.mem S w'.st.mem := by
    intro S hc
    rcases hw with hw | ⟨hw, hd⟩ <;> rw [hw] at hc
    · exact hc
    · exact hc hd
  have hlive : ∀ {t}, OkT w.next [] G (o, sk) t → t ≠ w.next := by
    rintro t (ht | ⟨h1, rfl⟩) he
    · exact ht (.inl (Nat.le_of_eq he.symm))
    · have := hG.2.tok k _ hgk h1
      exact absurd he (Nat.ne_of_lt this.2)
  by_cases hd : ∃ i op g, x = .applyMut i op ∧ G[i]? = some g ∧ g.2 = .transient
  · obtain ⟨i, op, g, rfl, hgi, hki⟩ := hd
    refine kept_of (S := fun t => t = w.next ∨ t = g.1.tok) (key _ (wx_step (w := { w with st := { w.st with fault := f } }) hg hE (h0 _) (.inl rfl) fun i' h' h1 h2 _ => ?_)) (vgd_mono (hG.2.obj k _ hgk) fun t ht => ?_)
    · cases h1
      change w.objs[i]? = some h' at h2
      rw [hG.get hgi] at h2
      cases h2
      exact .inr rfl
    · rintro (h1 | h1)
      · exact hlive ht h1
      · exact hG.2.other hgi hki hgk (fun h => hn (by rw [h]; rfl)) ht h1
  · refine kept_of (S := fun t => t = w.next) (key _ (wx_step (w := { w with st := { w.st with fault := f } }) hg hE (h0 _) rfl fun i' h' h1 h2 h3 => ?_)) (vgd_mono (hG.2.obj k _ hgk) fun t ht => hlive ht)
    exfalso
    cases x with
    | applyMut i op =>
      cases h1
      obtain ⟨s, hs⟩ := hG.of_get h2
      have hk' := hG.2.kd _ _ hs
      cases s with
      | transient => exact hd ⟨_, op, _, rfl, hs, rfl⟩
      | value => rw [h3] at hk'; cases hk'
      | shell => exact hx (snd_get hs)
    | _ => cases h1

/-- **C54**: concatenations of values that follow such calls, with `operator+` of any form: no node of an object is changed, whether
the call returns or throws. -/
theorem C54_gc_plus_partial (hB : 2 ≤ c.B) (hE : E.Fresh) (hne : er ≠ et) (hg : E.gc = true) (h : GReached c E X er et w K) {f : Option (Kind × Nat)} {b : Bin} (hi : K[i]? = some .value) (hj : K[j]? = some .value) (hb : b ≠ .prependMove)
    (hw : ccall c E X er et f (.two b i j) w = .ok w' () ∨ ccall c E X er et f (.two b i j) w = .thrown w') (hk : w.objs[k]? = some o) :
    (∀ p, NodeOf w.st.mem o.v p → ∃ cl, w.st.mem p = some cl ∧ w'.st.mem p = some cl) ∧ contents c w'.st.mem o.v = contents c w.st.mem o.v := by
  obtain ⟨G, rfl, hG⟩ := h.own hB hE hne hg
  obtain ⟨gi, hgi, hki⟩ := Option.map_eq_some_iff.mp ((List.getElem?_map ..).symm.trans hi)
  obtain ⟨gj, hgj, hkj⟩ := Option.map_eq_some_iff.mp ((List.getElem?_map ..).symm.trans hj)
  obtain ⟨sk, hgk⟩ := hG.of_get hk
  rw [plus_eq hg hG hgi hki hgj hkj hb] at hw
  have h5 := wx_fr (th := True) (f := fun x => push ⟨.value, x, 0⟩) (Plus.fr_concat (c := c) (l := gi.1.v) (r := gj.1.v) (m0 := w.st.mem) (S := fun _ => False) (s := { w.st with fault := f }) hg hE ⟨hG.2.fin, fun _ _ => rfl⟩)
    (w := { w with st := { w.st with fault := f } }) fun _ _ h => h
  refine kept_of (S := fun _ => False) ?_ (vgd_mono (hG.2.obj k _ hgk) fun _ _ h => h)
  rcases hw with hw | hw <;> rw [hw] at h5
  · exact h5
  · exact h5 trivial

end FlexHeap
