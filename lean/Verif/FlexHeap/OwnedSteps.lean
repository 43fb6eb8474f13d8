import Verif.FlexHeap.OwnedJoin
import Verif.FlexHeap.OwnedSlice

/-!
# Calls of one object, and whose nodes are whose
-/

namespace FlexHeap
open Mm Rrb VecHeap
open VecHeap.Spec (SKd)

variable {T β δ : Type} {c : Cfg} {E : Env Dat T} {X : Elem T} {er et : Nat} {w w' w1 : World T} {F F' : List Nat} {G : List OK} {i j k t : Nat} {g g' : OK} {S A : Nat → Prop} {K : List SKd} {s : St Dat T} {m0 : Mem Dat T} {th : Prop} {v : Vc} {o : Obj}

/-! ### Operations -/

theorem hx_bind {x : HM T β} {f : β → HM T δ} {Q : β → Prop} {R : δ → Prop} (hx : Hx th m0 S x s Q) (hf : ∀ s' b, Held m0 S s'.mem → Q b → Hx th m0 S (f b) s' R) : Hx th m0 S (x.bind f) s R := by
  unfold Hx M.bind at *
  cases h : x s with
  | ok s1 b => rw [h] at hx; exact hf s1 b hx.1 hx.2
  | thrown s1 => rw [h] at hx; exact hx
  | ub => trivial

theorem hx_ret {b : β} {Q : β → Prop} (hs : Held m0 S s.mem) (h : Q b) : Hx th m0 S (M.ret b) s Q := ⟨hs, h⟩

theorem hx_apply {op : FlexOp T} (hg : E.gc = true) (hE : E.Fresh) (hs : Held m0 S s.mem) : Hx th m0 S ((flexKit T c X).apply E er et v op) s (fun _ => True) := by
  cases op with
  | push x => exact fx_hx (fx (fr_pushBack hg hE hs)) fun _ _ _ => trivial
  | set i x => exact hd_hx (hd_update hg hE hs)
  | update i f => exact hd_hx (hd_update hg hE hs)
  | take n => exact fx_hx (fx (fr_take hg hE hs)) fun _ _ _ => trivial
  | drop n => exact fx_hx (fx_dropN hg hE hs) fun _ _ _ => trivial

theorem gr_apply {op : FlexOp T} (hg : E.gc = true) (hE : E.Fresh) (h0 : A 0) (hs : Fin' s.mem) (hv : Gc.VGd A s.mem v) (hr : Gd A s.mem er) (ht : Gd A s.mem et) : Gr A ((flexKit T c X).apply E er et v op) s (Gc.VGd A) := by
  cases op with
  | push x => exact gr_pushBack hg hE h0 hs hv
  | set i x => exact gr_update hg hE h0 hs hv
  | update i f => exact gr_update hg hE h0 hs hv
  | take n => exact gr_take hg hE h0 hs hv hr ht
  | drop n => exact gr_dropN hg hE h0 hs hv hr ht

/-- `drop` in place is left out when it throws -/
def isDrop : FlexOp T → Bool
  | .drop _ => true
  | _ => false

theorem hx_applyMut {e : Nat} {op : FlexOp T} (hg : E.gc = true) (hE : E.Fresh) (he : S e) (hs : Held m0 S s.mem) :
    Hx (isDrop op = false) m0 S ((flexKit T c X).applyMut E er et e v op) s (fun r => ∀ p j fn, r.2 = some (p, j, fn) → ¬ Shut m0 S p) := by
  cases op with
  | push x => exact hx_bind (fx_hx (Q' := fun _ => True) (fx (fr_pushBackMut hg hE he hs)) fun _ _ _ => trivial) fun _ _ hs1 _ => hx_ret hs1 fun _ _ _ h => by cases h
  | set i x => exact hx_bind (hd_hx (hd_getMut hg hE he hs)) fun _ _ hs1 h1 => hx_ret hs1 fun _ _ _ h => by cases h; exact h1
  | update i f => exact hx_bind (hd_hx (hd_getMut hg hE he hs)) fun _ _ hs1 h1 => hx_ret hs1 fun _ _ _ h => by cases h; exact h1
  | take n => exact hx_bind (fx_hx (Q' := fun _ => True) (fx (fr_takeMut hg hE he hs)) fun _ _ _ => trivial) fun _ _ hs1 _ => hx_ret hs1 fun _ _ _ h => by cases h
  | drop n => exact hx_bind (fx_hx (Q' := fun _ => True) (fx_dropMut hg hE he (fun h => by cases h) hs) fun _ _ _ => trivial) fun _ _ hs1 _ => hx_ret hs1 fun _ _ _ h => by cases h

theorem gr_applyMut {e : Nat} {op : FlexOp T} (hg : E.gc = true) (hE : E.Fresh) (ho : OwnOk A (some e)) (hs : Fin' s.mem) (hv : Gc.VGd A s.mem v) (hr : Gd A s.mem er) (ht : Gd A s.mem et) :
    Gr A ((flexKit T c X).applyMut E er et e v op) s (fun m r => Gc.VGd A m r.1) := by
  cases op with
  | push x => exact gr_bind (gr_pushBackMut hg hE ho hs hv) fun _ _ hs1 _ h1 => gr_ret hs1 h1
  | set i x => exact gr_bind (gr_getMut hg hE ho hs hv) fun _ _ hs1 _ h1 => gr_ret hs1 h1
  | update i f => exact gr_bind (gr_getMut hg hE ho hs hv) fun _ _ hs1 _ h1 => gr_ret hs1 h1
  | take n => exact gr_bind (gr_takeMut hg hE ho hs hv hr ht) fun _ _ hs1 _ h1 => gr_ret hs1 h1
  | drop n => exact gr_bind (gr_dropMut hg hE ho hs hv hr ht) fun _ _ hs1 _ h1 => gr_ret hs1 h1

theorem fr_pushes {e : Nat} (hg : E.gc = true) (hE : E.Fresh) (he : S e) : ∀ (xs : List T) (v : Vc) (s : St Dat T), Held m0 S s.mem → Fr m0 S (pushes (flexKit T c X) E e v xs) s (fun _ _ => True)
  | [], _, _, hs => fr_ret hs trivial
  | _ :: xs, _, _, hs => fr_bind (fr_guard (fr_pushBackMut hg hE he hs) fun _ hs1 => fr_sv (fr_ro hs1 (ro_drop hg))) fun _ _ hs1 _ _ => fr_pushes hg hE he xs _ _ hs1

theorem gr_pushes {e : Nat} (hg : E.gc = true) (hE : E.Fresh) (ho : OwnOk A (some e)) : ∀ (xs : List T) (v : Vc) (s : St Dat T), Fin' s.mem → Gc.VGd A s.mem v → Gr A (pushes (flexKit T c X) E e v xs) s (Gc.VGd A)
  | [], _, _, hs, hv => gr_ret hs hv
  | _ :: xs, _, _, hs, hv => gr_bind (gr_guard (gr_pushBackMut hg hE ho hs hv)) fun _ _ hs1 _ h1 => gr_pushes hg hE ho xs _ _ hs1 h1

/-! ### Worlds -/

theorem ro_ok {x : HM T β} {b : β} (hx : Ro x) (h : lift x w = .ok w1 b) : w1 = w := by
  obtain ⟨s, h1, rfl⟩ := lift_ok h
  have := hx w.st
  rw [h1] at this
  simp only at this
  subst this
  rfl

theorem copy_ok {x : Vc} (hg : E.gc = true) (h : lift (v.copy E) w = .ok w1 x) : w1 = w ∧ x = v := by
  refine ⟨ro_ok (ro_bind (ro_share hg) fun _ => ro_ret _) h, ?_⟩
  obtain ⟨s, h1, rfl⟩ := lift_ok h
  unfold Vc.copy M.bind M.ret at h1
  cases h2 : v.share E w.st with
  | ok s1 u => rw [h2] at h1; cases h1; rfl
  | thrown s1 => rw [h2] at h1; cases h1
  | ub => rw [h2] at h1; cases h1

theorem empty_ok {x : Vc} (hg : E.gc = true) (h : OwnW er et w F G) (hw : lift (Vc.empty c E er et) w = .ok w1 x) : w1 = w ∧ Gc.VGd (fun t => ¬ LiveT w.next F G t) w.st.mem x := by
  have h1 := ro_ok (ro_empty hg) hw
  obtain ⟨s, h2, rfl⟩ := lift_ok hw
  have h3 := gr_empty (c := c) (E := E) (er := er) (et := et) (s := w.st) hg h.2.fin h.2.stat.1 h.2.stat.2
  unfold Gr at h3
  rw [h2] at h3
  have : s = w.st := congrArg World.st h1
  exact ⟨h1, this ▸ h3.2.2⟩

theorem live_bump {next : Nat} (h : LiveT (next + 1) (next :: F) G t) : LiveT next F G t := by
  rcases h with h1 | h1 | h1
  · exact .inl (by omega)
  · rcases List.mem_cons.mp h1 with rfl | h1
    · exact .inl (Nat.le_refl _)
    · exact .inr (.inl h1)
  · exact .inr (.inr h1)

theorem own_push {s : SKd} (h : OwnW er et w F G) (hF : ∀ t ∈ F', t ∈ F) (hk : o.kd = s.kd) (ht : s = .transient → o.tok ∈ F ∧ o.tok ∉ F')
    (hv : Gc.VGd (fun t => ¬ LiveT w.next F G t ∨ (s = .transient ∧ t = o.tok)) w.st.mem o.v) (hw : push o w = .ok w' ()) : OwnW er et w' F' (G ++ [(o, s)]) ∧ w'.st = w.st := by
  cases hw
  refine ⟨⟨?_, h.2.push hF hk ht (vgd_mono hv fun t ht' => ht'.imp_left (mt (OwnG.live_push hF (fun h => (ht h).1) t)))⟩, rfl⟩
  rw [List.map_append, ← h.1]
  rfl

theorem own_set {f : Obj → Obj} {s : SKd} (h : OwnW er et w F G) (hi : G[i]? = some g) (hF : ∀ t ∈ F', t ∈ F ∨ (g.2 = .transient ∧ t = g.1.tok)) (hk : (f g.1).kd = s.kd)
    (ht : s = .transient → ((g.2 = .transient ∧ (f g.1).tok = g.1.tok) ∨ (f g.1).tok ∈ F) ∧ (f g.1).tok ∉ F') (hv : Gc.VGd (OkT w.next F' (G.set i (f g.1, s)) (f g.1, s)) w.st.mem (f g.1).v) :
    OwnW er et { w with objs := w.objs.modify i f } F' (G.set i (f g.1, s)) := by
  refine ⟨?_, h.2.set hi hF hk ht hv⟩
  have h1 : w.objs[i]? = some g.1 := h.get hi
  change w.objs.modify i f = _
  rw [modify_set h1, h.1, List.map_set]

/-- a token for a transient, none for a value -/
theorem own_ownerFor {kd : VecHeap.Kd} (h : OwnW er et w F G) (hw : ownerFor E kd w = .ok w1 t) : w1.st.mem = w.st.mem ∧
    ((kd = .value ∧ t = 0 ∧ w1 = w) ∨ (kd = .transient ∧ OwnW er et w1 (t :: F) G ∧ ∀ x, LiveT w1.next (t :: F) G x → LiveT w.next F G x)) := by
  cases kd with
  | value => cases hw; exact ⟨rfl, .inl ⟨rfl, rfl, rfl⟩⟩
  | transient =>
    obtain ⟨h1, rfl, h3, h4⟩ := own_newTok h hw
    exact ⟨h4, .inr ⟨rfl, h1, fun x hx => live_bump (by rwa [h3] at hx)⟩⟩

theorem skd_value {s : SKd} (h : VecHeap.Kd.value = s.kd) : s = SKd.value := by cases s <;> first | rfl | cases h

/-! ### Kinds of objects -/

def kon (K : List SKd) (i : Nat) (kd : Option VecHeap.Kd) (f : SKd → List SKd) : List SKd :=
  match K[i]? with
  | some s => if kd = none ∨ kd = some s.kd then f s else K
  | none => K

/-- kinds of objects after a call under the collector, as in `VecHeap.Spec.step` -/
def kstep (K : List SKd) : Cmd T (FlexOp T) → List SKd
  | .new kd => K ++ [.of kd]
  | .ofRange _ => K ++ [.value]
  | .copy i => kon K i none fun s => K ++ [s]
  | .move i => kon K i none fun s => K.set i (s.moved true) ++ [s]
  | .assign i j => kon K i none fun s => kon K j (some s.kd) fun s' => K.set i s'
  | .moveAssign i j => kon K i none fun s => kon K j (some s.kd) fun s' => (K.set i s').set j (s'.moved true)
  | .destroy i => K.eraseIdx i
  | .transient i => kon K i (some .value) fun _ => K ++ [.transient]
  | .transientMove i => kon K i (some .value) fun _ => K ++ [.transient]
  | .persistent i => kon K i (some .transient) fun _ => K ++ [.value]
  | .persistentMove i => kon K i (some .transient) fun s => K.set i (s.moved true) ++ [.value]
  | .apply i _ => kon K i (some .value) fun _ => K ++ [.value]
  | .applyMove i _ => kon K i (some .value) fun _ => K ++ [.value]
  | .applyMut _ _ => K

/-- a transient is not used after it was moved from (F11) -/
def KAllowed (K : List SKd) : Cmd T (FlexOp T) → Prop
  | .copy i | .move i | .assign _ i | .moveAssign _ i | .persistent i | .persistentMove i | .applyMut i _ => K[i]? ≠ some .shell
  | _ => True

theorem kon_eq {kd : Option VecHeap.Kd} {f : SKd → List SKd} {s : SKd} (hi : K[i]? = some s) (hk : kd = none ∨ kd = some s.kd) : kon K i kd f = f s := by
  unfold kon
  rw [hi]
  exact if_pos hk

theorem kon_skip {kd : Option VecHeap.Kd} {f : SKd → List SKd} (h : ∀ s, K[i]? = some s → ¬ (kd = none ∨ kd = some s.kd)) : kon K i kd f = K := by
  unfold kon
  cases hi : K[i]? with
  | none => rfl
  | some s => exact if_neg (h s hi)

/-- the object is there and has the kind, or nothing is done -/
theorem with_ok {kd : Option VecHeap.Kd} {f : Obj → WM T Unit} (h : OwnW er et w F G) (hw : withObj i kd f w = .ok w' ()) :
    (∃ g, G[i]? = some g ∧ (kd = none ∨ kd = some g.2.kd) ∧ g.1.kd = g.2.kd ∧ f g.1 w = .ok w' ()) ∨ (w' = w ∧ ∀ s, (G.map Prod.snd)[i]? = some s → ¬ (kd = none ∨ kd = some s.kd)) := by
  unfold withObj at hw
  cases hi : G[i]? with
  | none =>
    rw [h.1, List.getElem?_map, hi] at hw
    cases hw
    refine .inr ⟨rfl, fun s hs => ?_⟩
    rw [List.getElem?_map, hi] at hs
    cases hs
  | some g =>
    have hk := h.2.kd i g hi
    rw [h.get hi] at hw
    simp only at hw
    split at hw
    · exact .inl ⟨g, rfl, hk ▸ ‹_›, hk, hw⟩
    · cases hw
      refine .inr ⟨rfl, fun s hs => ?_⟩
      rw [List.getElem?_map, hi] at hs
      cases hs
      exact hk ▸ ‹_›

theorem snd_get (hi : G[i]? = some g) : (G.map Prod.snd)[i]? = some g.2 := by rw [List.getElem?_map, hi]; rfl

theorem own_weak (h : OwnW er et w F G) : OwnW er et w [] G := ⟨h.1, h.2.weak fun t ht => by cases ht⟩

theorem own_inPlace {op : FlexOp T} (hg : E.gc = true) (hE : E.Fresh) (h : OwnW er et w [] G) (hi : G[i]? = some g) (hk : g.2 = .transient) (hw : inPlace (flexKit T c X) E er et i g.1.tok g.1 op w = .ok w' ()) :
    Own er et w' (G.map Prod.snd) := by
  obtain ⟨w1, r, h1, hw⟩ := bind_ok hw
  obtain ⟨s, h2, rfl⟩ := lift_ok h1
  obtain ⟨w2, _, h3, hw⟩ := bind_ok hw
  cases h3
  have hA : OwnOk (OkT w.next [] G g) (some g.1.tok) := ⟨.inl h.2.live0, fun e h => by cases h; exact .inr ⟨hk, rfl⟩⟩
  have h5 := hx_applyMut (c := c) (X := X) (er := er) (et := et) (op := op) (v := g.1.v) (m0 := w.st.mem) (S := fun t => t = g.1.tok) (s := w.st) hg hE rfl ⟨h.2.fin, fun _ _ => rfl⟩
  have h6 := gr_applyMut (c := c) (X := X) (er := er) (et := et) (op := op) (v := g.1.v) (s := w.st) hg hE hA h.2.fin (h.2.obj i g hi) (h.2.stat.1.mono fun _ => .inl) (h.2.stat.2.mono fun _ => .inl)
  unfold Hx at h5
  unfold Gr at h6
  rw [h2] at h5 h6
  obtain ⟨v, r⟩ := r
  cases r with
  | none =>
    cases hw
    exact ⟨_, (Gc.snd_set hi).symm, modify_map (f := fun h => { h with v := v }) h.1 hi, Gc.own_one (w := w) h hi hk h5.1 h6.2.2⟩
  | some r =>
    obtain ⟨p, j, fn⟩ := r
    obtain ⟨s', h7, rfl⟩ := lift_ok hw
    have h8 := hd_applyFn (i := j) (fn := fn) (m0 := w.st.mem) (S := fun t => t = g.1.tok) h5.1 (h5.2 p j fn rfl)
    have h9 := gr_applyFn (p := p) (i := j) (fn := fn) (A := OkT w.next [] G g) h6.1
    change applyFn fn p j s = _ at h7
    unfold Hd at h8
    unfold Gr at h9
    rw [h7] at h8 h9
    exact ⟨_, (Gc.snd_set hi).symm, modify_map (f := fun h => { h with v := v }) h.1 hi, Gc.own_one (w := w) h hi hk h8.1 ⟨h9.2.1 _ h6.2.2.1, h9.2.1 _ h6.2.2.2⟩⟩

theorem own_apply {op : FlexOp T} (hg : E.gc = true) (hE : E.Fresh) (h : OwnW er et w [] G) (hi : G[i]? = some g) (hk : g.2 = .value)
    (hw : ((lift ((flexKit T c X).apply E er et g.1.v op)).bind fun x => push ⟨.value, x, 0⟩) w = .ok w' ()) : Own er et w' (G.map Prod.snd ++ [.value]) := by
  obtain ⟨w1, x, h1, hw⟩ := bind_ok hw
  obtain ⟨s, h2, rfl⟩ := lift_ok h1
  have hv : Gc.VGd (fun t => ¬ LiveT w.next [] G t) w.st.mem g.1.v := vgd_mono (h.2.obj i g hi) fun t ht => ht.elim id fun h => by rw [hk] at h; cases h.1
  have h5 := hx_apply (c := c) (X := X) (er := er) (et := et) (op := op) (v := g.1.v) (m0 := w.st.mem) (S := fun _ => False) (th := True) (s := w.st) hg hE ⟨h.2.fin, fun _ _ => rfl⟩
  have h6 := gr_apply (c := c) (X := X) (er := er) (et := et) (op := op) (v := g.1.v) (s := w.st) hg hE h.2.live0 h.2.fin hv h.2.stat.1 h.2.stat.2
  unfold Hx at h5
  unfold Gr at h6
  rw [h2] at h5 h6
  have h7 : OwnW er et { w with st := s } [] G := ⟨h.1, h.2.keep h5.1 (fun k g hk => vgd_mono (h.2.obj k g hk) fun _ _ h => h) (h.2.stat.1.mono fun _ _ h => h) (h.2.stat.2.mono fun _ _ h => h)⟩
  exact ⟨_, by rw [List.map_append]; rfl, (own_push (s := .value) h7 (fun _ h => h) rfl (fun h => by cases h) (vgd_mono h6.2.2 fun _ => .inl) hw).1⟩

/-- the end of an assignment -/
theorem own_assign {s : SKd} (hg : E.gc = true) (h : OwnW er et w F G) (hi : G[i]? = some g) (hk : g.1.kd = s.kd) (ht : s = .transient → t ∈ F) (hv : Gc.VGd (fun x => ¬ LiveT w.next F G x) w.st.mem v) {u : Vc}
    (hw : ((setOwner i t).bind fun _ => (lift (v.copy E)).bind fun x => (setVc i x).bind fun _ => lift ((flexKit T c X).drop E u)) w = .ok w' ()) : Own er et w' ((G.map Prod.snd).set i s) := by
  obtain ⟨w1, _, h1, hwa⟩ := bind_ok hw
  obtain ⟨w2, x, h2, hwb⟩ := bind_ok hwa
  obtain ⟨h3, h3'⟩ := copy_ok hg h2
  subst h3 h3'
  obtain ⟨w3, _, h4, hwc⟩ := bind_ok hwb
  have h5 := ro_ok (ro_drop hg) hwc
  subst h5
  cases h1
  cases h4
  have h6 := own_set (f := fun h => { h with tok := t, v := x }) (s := s) (F' := []) h hi (fun _ h => by cases h) hk (fun h => ⟨.inr (ht h), fun h => by cases h⟩)
    (vgd_mono hv fun y hy => .inl (mt (OwnG.live_set hi (fun _ h => by cases h) (fun h => .inr (ht h)) y) hy))
  refine ⟨_, ?_, (List.modify_modify_eq ..).trans h6.1, h6.2⟩
  rw [List.map_set]

theorem own_step {f : Option (Kind × Nat)} {x : Cmd T (FlexOp T)} (hg : E.gc = true) (hE : E.Fresh) (h : Own er et w K) (hx : KAllowed K x) (hw : VecHeap.call c (flexKit T c X) E er et f x w = .ok w' ()) :
    Own er et w' (kstep K x) := by
  obtain ⟨G, rfl, hG⟩ := h
  have h : OwnW er et ({ w with st := { w.st with fault := f } } : World T) [] G := hG
  unfold VecHeap.call at hw
  revert hw
  generalize ({ w with st := { w.st with fault := f } } : World T) = w at h
  clear hG
  intro hw
  cases x with
  | new kd =>
    obtain ⟨w1, t, h1, hw_⟩ := bind_ok hw; clear hw; have hw := hw_; clear hw_
    obtain ⟨w2, v, h2, hw_⟩ := bind_ok hw; clear hw; have hw := hw_; clear hw_
    obtain ⟨_, ⟨rfl, rfl, rfl⟩ | ⟨rfl, h3, h4⟩⟩ := own_ownerFor h h1
    · obtain ⟨rfl, hv⟩ := empty_ok hg h h2
      exact ⟨_, by rw [List.map_append]; rfl, (own_push (s := .value) h (fun _ h => h) rfl (fun h => by cases h) (vgd_mono hv fun _ => .inl) hw).1⟩
    · obtain ⟨rfl, hv⟩ := empty_ok hg h3 h2
      exact ⟨_, by rw [List.map_append]; rfl, (own_push (s := .transient) (F' := []) h3 (fun _ h => by cases h) rfl (fun _ => ⟨List.mem_cons_self .., fun h => by cases h⟩) (vgd_mono hv fun _ => .inl) hw).1⟩
  | ofRange xs =>
    obtain ⟨w1, t, h1, hw_⟩ := bind_ok hw; clear hw; have hw := hw_; clear hw_
    obtain ⟨w2, v, h2, hw_⟩ := bind_ok hw; clear hw; have hw := hw_; clear hw_
    obtain ⟨_, ⟨h3, _⟩ | ⟨_, h3, h4⟩⟩ := own_ownerFor h h1
    · cases h3
    obtain ⟨rfl, hv⟩ := empty_ok hg h3 h2
    obtain ⟨w3, y, h5, hw_⟩ := bind_ok hw; clear hw; have hw := hw_; clear hw_
    obtain ⟨s, h6, rfl⟩ := lift_ok h5
    have ht := h3.2.fresh t (List.mem_cons_self ..)
    have h7 := fr_pushes (c := c) (X := X) (m0 := w2.st.mem) (S := fun x => x = t) hg hE rfl xs v w2.st ⟨h3.2.fin, fun _ _ => rfl⟩
    have h8 := gr_pushes (c := c) (X := X) (A := fun x => ¬ LiveT w2.next [t] G x ∨ x = t) hg hE ⟨.inl h3.2.live0, fun e h => by cases h; exact .inr rfl⟩ xs v w2.st h3.2.fin (vgd_mono hv fun _ => .inl)
    unfold Fr at h7
    unfold Gr at h8
    rw [h6] at h7 h8
    have hne : ∀ x, ¬ LiveT w2.next [t] G x → x ≠ t := fun x hx he => hx (.inr (.inl (by simp [he])))
    have h9 : OwnW er et { w2 with st := s } [t] G := ⟨h3.1, h3.2.keep h7.1 (fun k g hk => vgd_mono (h3.2.obj k g hk) fun x => by
      rintro (hx | ⟨h10, rfl⟩)
      · exact hne x hx
      · exact ht.2.2 k g hk h10) (h3.2.stat.1.mono hne) (h3.2.stat.2.mono hne)⟩
    refine ⟨_, by rw [List.map_append]; rfl, (own_push (s := .value) (own_weak h9) (fun _ h => h) rfl (fun h => by cases h) (vgd_mono h8.2.2 fun x => ?_) hw).1⟩
    rintro (hx | rfl)
    · exact .inl fun h => hx (h.imp_right (Or.imp_left fun h => by cases h))
    · refine .inl ?_
      rintro (h | h | ⟨k, g, h11, h12, h13⟩)
      · have := ht.2.1
        change w2.next ≤ x at h
        omega
      · cases h
      · exact ht.2.2 k g h11 h12 h13
  | copy i =>
    rcases with_ok h hw with ⟨g, hi, _, hk, hw_⟩ | ⟨rfl, h1⟩
    rotate_left
    · exact ⟨G, kon_skip h1, h⟩
    clear hw; have hw := hw_; clear hw_
    rw [kstep, kon_eq (snd_get hi) (.inl rfl)]
    obtain ⟨w1, t, h1, hw_⟩ := bind_ok hw; clear hw; have hw := hw_; clear hw_
    obtain ⟨w2, t', h2, hw_⟩ := bind_ok hw; clear hw; have hw := hw_; clear hw_
    obtain ⟨w3, _, h3, hw_⟩ := bind_ok hw; clear hw; have hw := hw_; clear hw_
    obtain ⟨w4, x, h4, hw_⟩ := bind_ok hw; clear hw; have hw := hw_; clear hw_
    obtain ⟨rfl, rfl⟩ := copy_ok hg h4
    obtain ⟨_, ⟨hkd, rfl, rfl⟩ | ⟨hkd, h5, _⟩⟩ := own_ownerFor h h1
    · obtain ⟨_, ⟨_, rfl, rfl⟩ | ⟨hkd', _⟩⟩ := own_ownerFor h h2
      swap
      · rw [hkd] at hkd'; cases hkd'
      have hv := skd_value (hkd.symm.trans hk)
      cases h3
      have hl := h.2.loose (g' := ({ g.1 with tok := 0 }, g.2)) (F' := []) hi (fun _ h => h) (fun h => by rw [hv] at h; cases h) (fun h => by rw [hv] at h; cases h)
      have h6 := own_set (f := fun h => { h with tok := 0 }) (s := g.2) (F' := []) h hi (fun _ h => by cases h) hk (fun h => by rw [hv] at h; cases h) (vgd_mono hl fun _ => .inl)
      refine ⟨_, ?_, (own_push (o := ⟨g.1.kd, g.1.v, 0⟩) (s := g.2) h6 (fun _ h => h) hk (fun h => by rw [hv] at h; cases h) (vgd_mono hl fun _ => .inl) hw).1⟩
      rw [List.map_append, Gc.snd_set hi]
      rfl
    · obtain ⟨_, ⟨hkd', _⟩ | ⟨_, h6, _⟩⟩ := own_ownerFor h5 h2
      · rw [hkd] at hkd'; cases hkd'
      obtain ⟨h7, h8, _, _⟩ := own_setOwner (F' := [t]) h6 hi (List.mem_cons_self ..) (fun x hx => by
        obtain rfl := List.mem_singleton.mp hx
        refine ⟨by simp, ?_⟩
        rintro rfl
        obtain ⟨_, h9, _, _⟩ := own_newTok h (by rw [hkd] at h1; exact h1)
        obtain ⟨_, h10, _, _⟩ := own_newTok h5 (by rw [hkd] at h2; exact h2)
        have := (h5.2.fresh x (by simp)).2.1
        omega) h3
      refine ⟨_, ?_, (own_push (o := ⟨g.1.kd, g.1.v, t⟩) (s := g.2) (F' := []) h7 (fun _ h => by cases h) hk (fun _ => ⟨by simp, fun h => by cases h⟩) (vgd_mono h8 fun _ => .inl) hw).1⟩
      rw [List.map_append, Gc.snd_set hi]
      rfl
  | move i =>
    rcases with_ok h hw with ⟨g, hi, _, hk, hw_⟩ | ⟨rfl, h1⟩
    rotate_left
    · exact ⟨G, kon_skip h1, h⟩
    clear hw; have hw := hw_; clear hw_
    rw [kstep, kon_eq (snd_get hi) (.inl rfl)]
    obtain ⟨w1, x, h1, hw_⟩ := bind_ok hw; clear hw; have hw := hw_; clear hw_
    obtain ⟨rfl, hv⟩ := empty_ok hg h h1
    obtain ⟨w2, _, h2, hw_⟩ := bind_ok hw; clear hw; have hw := hw_; clear hw_
    cases h2
    cases hs : g.2 with
    | shell => exact absurd (by rw [snd_get hi, hs]) hx
    | value =>
      have hl := h.2.loose (g' := ({ g.1 with v := x }, .value)) (F' := []) hi (fun _ h => h) (fun h => by cases h) (fun h => by cases h)
      have h6 := own_set (f := fun h => { h with v := x }) (s := .value) (F' := []) h hi (fun _ h => by cases h) (hk.trans (by rw [hs])) (fun h => by cases h)
        (vgd_mono hv fun t ht => .inl (mt (OwnG.live_set hi (fun _ h => .inl h) (fun h => by cases h) t) ht))
      refine ⟨_, ?_, (own_push (s := .value) h6 (fun _ h => h) (hk.trans (by rw [hs])) (fun h => by cases h) (vgd_mono hl fun _ => .inl) hw).1⟩
      rw [List.map_append, List.map_set]
      rfl
    | transient =>
      have hL : ∀ t, LiveT w1.next [g.1.tok] (G.set i ({ g.1 with v := x }, .shell)) t → LiveT w1.next [] G t := OwnG.live_set hi (fun t h => .inr ⟨hs, List.mem_singleton.mp h⟩) (fun h => by cases h)
      have h6 := own_set (f := fun h => { h with v := x }) (s := .shell) (F' := [g.1.tok]) h hi (fun t h => .inr ⟨hs, List.mem_singleton.mp h⟩) (hk.trans (by rw [hs]; rfl)) (fun h => by cases h)
        (vgd_mono hv fun t ht => .inl (mt (hL t) ht))
      refine ⟨_, ?_, (own_push (s := .transient) (F' := []) h6 (fun _ h => by cases h) (hk.trans (by rw [hs])) (fun _ => ⟨by simp, fun h => by cases h⟩)
        (vgd_mono (h.2.obj i g hi) fun t ht => ht.imp (mt (hL t)) fun h => ⟨rfl, h.2⟩) hw).1⟩
      rw [List.map_append, List.map_set]
      rfl
  | assign i j =>
    rcases with_ok h hw with ⟨g, hi, _, hk, hw_⟩ | ⟨rfl, h1⟩
    rotate_left
    · exact ⟨G, kon_skip h1, h⟩
    clear hw; have hw := hw_; clear hw_
    rw [kstep, kon_eq (snd_get hi) (.inl rfl)]
    rcases with_ok h hw with ⟨g', hj, hkd, hk', hw_⟩ | ⟨rfl, h1⟩
    rotate_left
    · rw [hk] at h1; exact ⟨G, kon_skip h1, h⟩
    clear hw; have hw := hw_; clear hw_
    rw [hk] at hkd
    rw [kon_eq (snd_get hj) hkd]
    have hkk : g.1.kd = g'.2.kd := hk.trans (hkd.elim (fun h => by cases h) fun h => by injection h)
    obtain ⟨w1, t', h1, hw_⟩ := bind_ok hw; clear hw; have hw := hw_; clear hw_
    obtain ⟨w2, _, h2, hw_⟩ := bind_ok hw; clear hw; have hw := hw_; clear hw_
    obtain ⟨w3, t, h3, hw_⟩ := bind_ok hw; clear hw; have hw := hw_; clear hw_
    obtain ⟨_, ⟨hv, rfl, rfl⟩ | ⟨hv, h5, _⟩⟩ := own_ownerFor h h1
    · have hs' : g'.2 = .value := skd_value (hv.symm.trans hkk)
      cases h2
      have hl := h.2.loose (g' := ({ g'.1 with tok := 0 }, g'.2)) (F' := []) hj (fun _ h => h) (fun h => by rw [hs'] at h; cases h) (fun h => by rw [hs'] at h; cases h)
      have h6 := own_set (f := fun h => { h with tok := 0 }) (s := g'.2) (F' := []) h hj (fun _ h => by cases h) hk' (fun h => by rw [hs'] at h; cases h) (vgd_mono hl fun _ => .inl)
      obtain ⟨gi, hgi, hgk⟩ : ∃ gi, (G.set j ({ g'.1 with tok := 0 }, g'.2))[i]? = some gi ∧ gi.1.kd = g'.2.kd := by
        by_cases hij : j = i
        · subst hij
          exact ⟨_, List.getElem?_set_self (List.getElem?_eq_some_iff.mp hj).1, hk'⟩
        · exact ⟨g, by rw [List.getElem?_set_ne hij]; exact hi, hkk⟩
      obtain ⟨_, ⟨_, rfl, rfl⟩ | ⟨hv', _⟩⟩ := own_ownerFor h6 h3
      swap
      · rw [hv] at hv'; cases hv'
      have := own_assign hg h6 hgi hgk (fun h => by rw [hs'] at h; cases h) hl hw
      rwa [Gc.snd_set hj] at this
    · have hs' : g'.2 = .transient := by
        cases hs : g'.2 with
        | shell => exact absurd (by rw [snd_get hj, hs]) hx
        | value => rw [hkk, hs] at hv; cases hv
        | transient => rfl
      obtain ⟨h7, h8, _, _⟩ := own_setOwner (F' := []) h5 hj (List.mem_cons_self ..) (fun x hx => by cases hx) h2
      obtain ⟨gi, hgi, hgk⟩ : ∃ gi, (G.set j ({ g'.1 with tok := t' }, g'.2))[i]? = some gi ∧ gi.1.kd = g'.2.kd := by
        by_cases hij : j = i
        · subst hij
          exact ⟨_, List.getElem?_set_self (List.getElem?_eq_some_iff.mp hj).1, hk'⟩
        · exact ⟨g, by rw [List.getElem?_set_ne hij]; exact hi, hkk⟩
      obtain ⟨hm, ⟨hv', _⟩ | ⟨_, h9, h10⟩⟩ := own_ownerFor h7 h3
      · rw [hv] at hv'; cases hv'
      have := own_assign hg h9 hgi hgk (fun _ => List.mem_cons_self ..) (by rw [hm]; exact vgd_mono h8 fun x hx => mt (h10 x) hx) hw
      rwa [Gc.snd_set hj] at this
  | moveAssign i j =>
    rcases with_ok h hw with ⟨g, hi, _, hk, hw_⟩ | ⟨rfl, h1⟩
    rotate_left
    · exact ⟨G, kon_skip h1, h⟩
    clear hw; have hw := hw_; clear hw_
    rw [kstep, kon_eq (snd_get hi) (.inl rfl)]
    rcases with_ok h hw with ⟨g', hj, hkd, hk', hw_⟩ | ⟨rfl, h1⟩
    rotate_left
    · rw [hk] at h1; exact ⟨G, kon_skip h1, h⟩
    clear hw; have hw := hw_; clear hw_
    rw [hk] at hkd
    rw [kon_eq (snd_get hj) hkd]
    have hkk : g.1.kd = g'.2.kd := hk.trans (hkd.elim (fun h => by cases h) fun h => by injection h)
    obtain ⟨w1, _, h1, hw_⟩ := bind_ok hw; clear hw; have hw := hw_; clear hw_
    obtain ⟨w2, _, h2, hw_⟩ := bind_ok hw; clear hw; have hw := hw_; clear hw_
    cases h1
    cases h2
    cases hw
    have hil : i < G.length := (List.getElem?_eq_some_iff.mp hi).1
    have hjl : j < G.length := (List.getElem?_eq_some_iff.mp hj).1
    by_cases hij : i = j
    · subst hij
      rw [hi] at hj
      cases hj
      have ho : ((w.objs.modify i fun h => { h with tok := g.1.tok }).modify i fun h => { h with v := g.1.v }).modify i (fun h => { h with v := g.1.v }) = w.objs := by
        rw [List.modify_modify_eq, List.modify_modify_eq, modify_set (h.get hi)]
        obtain ⟨h1, h2⟩ := List.getElem?_eq_some_iff.mp (h.get hi)
        rw [← h2]
        exact List.set_getElem_self h1
      cases hs : g.2 with
      | shell => exact absurd (by rw [snd_get hi, hs]) hx
      | value =>
        refine ⟨G, ?_, ho.trans h.1, h.2⟩
        rw [List.set_set]
        change (G.map Prod.snd).set i .value = _
        rw [← hs]
        obtain ⟨h1, h2⟩ := List.getElem?_eq_some_iff.mp (snd_get hi)
        rw [← h2]
        exact List.set_getElem_self h1
      | transient =>
        have hl := h.2.loose (g' := (g.1, .shell)) (F' := []) hi (fun _ h => h) (fun h => by cases h) (fun h => by cases h)
        refine ⟨G.set i (g.1, .shell), ?_, ?_, h.2.set hi (fun _ h => by cases h) (hk.trans (by rw [hs]; rfl)) (fun h => by cases h) (vgd_mono hl fun _ => .inl)⟩
        · rw [List.set_set, List.map_set]; rfl
        · refine ho.trans (h.1.trans ?_)
          rw [List.map_set, ← h.1]
          obtain ⟨h1, h2⟩ := List.getElem?_eq_some_iff.mp (h.get hi)
          rw [← h2]
          exact (List.set_getElem_self h1).symm
    · -- the kind of an object whose elements were moved
      have hmk : g'.1.kd = (g'.2.moved true).kd := by rw [hk']; cases g'.2 <;> rfl
      have hmt : g'.2.moved true ≠ .transient := by cases g'.2 <;> decide
      -- the first object is without elements for now
      have hl1 := h.2.loose (g' := ({ g.1 with v := ⟨0, 0, er, et⟩ }, g'.2.moved true)) (F' := []) hi (fun _ h => h) (fun h => absurd h hmt) (fun h => absurd h hmt)
      have h1 := h.2.set (F' := []) (g' := ({ g.1 with v := ⟨0, 0, er, et⟩ }, g'.2.moved true)) hi (fun _ h => by cases h) (hkk.trans (hk'.symm.trans hmk)) (fun h => absurd h hmt)
        ⟨h.2.stat.1.mono fun t ht => .inl (mt (OwnG.live_set hi (fun _ h => .inl h) (fun h => absurd h hmt) t) ht), h.2.stat.2.mono fun t ht => .inl (mt (OwnG.live_set hi (fun _ h => .inl h) (fun h => absurd h hmt) t) ht)⟩
      have hj1 : (G.set i ({ g.1 with v := ⟨0, 0, er, et⟩ }, g'.2.moved true))[j]? = some g' := by rw [List.getElem?_set_ne hij]; exact hj
      -- the second gets its elements
      have hF2 : ∀ t ∈ (if g'.2 = .transient then [g'.1.tok] else []), t ∈ ([] : List Nat) ∨ (g'.2 = .transient ∧ t = g'.1.tok) := by
        intro t ht
        split at ht
        · exact .inr ⟨‹_›, List.mem_singleton.mp ht⟩
        · cases ht
      have hL2 := OwnG.live_set (next := w.next) (g' := ({ g'.1 with v := g.1.v }, g'.2.moved true)) hj1 hF2 (fun h => absurd h hmt)
      have h2 := h1.set (g' := ({ g'.1 with v := g.1.v }, g'.2.moved true)) hj1 hF2 hmk (fun h => absurd h hmt) (vgd_mono hl1 fun t ht => .inl (mt (hL2 t) ht))
      -- and the first those of the second, and its token
      have hi2 : ((G.set i ({ g.1 with v := ⟨0, 0, er, et⟩ }, g'.2.moved true)).set j ({ g'.1 with v := g.1.v }, g'.2.moved true))[i]? = some ({ g.1 with v := ⟨0, 0, er, et⟩ }, g'.2.moved true) := by
        rw [List.getElem?_set_ne (Ne.symm hij), List.getElem?_set_self hil]
      have ht3 : g'.2 = .transient → g'.1.tok ∈ (if g'.2 = .transient then [g'.1.tok] else []) := fun h => by rw [if_pos h]; exact List.mem_singleton.mpr rfl
      have hL3 := OwnG.live_set (next := w.next) (F' := []) (g' := ({ g.1 with tok := g'.1.tok, v := g'.1.v }, g'.2)) hi2 (fun _ h => by cases h) (fun h => .inr (ht3 h))
      have h3 := h2.set (F' := []) (g' := ({ g.1 with tok := g'.1.tok, v := g'.1.v }, g'.2)) hi2 (fun _ h => by cases h) hkk (fun h => ⟨.inr (ht3 h), fun h => by cases h⟩) (vgd_mono (h1.obj j g' hj1) fun t ht =>
        ht.imp_left fun ht => mt (fun hl => hL2 t (hL3 t hl)) ht)
      refine ⟨_, ?_, ?_, h3⟩
      · rw [List.map_set, List.map_set, List.map_set, List.set_comm _ _ (Ne.symm hij), List.set_set]
      · rw [List.map_set, List.map_set, List.map_set, List.set_comm _ _ (Ne.symm hij), List.set_set, ← h.1]
        change ((w.objs.modify i _).modify i _).modify j _ = _
        rw [List.modify_modify_eq, modify_set (h.get hi), modify_set (h := g'.1) (by rw [List.getElem?_set_ne hij]; exact h.get hj)]
        rfl
  | destroy i =>
    rcases with_ok h hw with ⟨g, hi, _, hk, hw_⟩ | ⟨rfl, h1⟩
    rotate_left
    · refine ⟨G, ?_, h⟩
      cases hi : G[i]? with
      | none => rw [kstep, List.eraseIdx_of_length_le]; rw [List.length_map]; exact List.getElem?_eq_none_iff.mp hi
      | some g => exact absurd (.inl rfl) (h1 _ (snd_get hi))
    clear hw; have hw := hw_; clear hw_
    obtain ⟨w1, x, h1, hw_⟩ := bind_ok hw; clear hw; have hw := hw_; clear hw_
    obtain rfl := ro_ok (ro_drop hg) h1
    cases hw
    refine ⟨G.eraseIdx i, by rw [kstep, Gc.eraseIdx_map], ?_, h.2.erase i⟩
    rw [Gc.eraseIdx_map, ← h.1]
  | transient i =>
    rcases with_ok h hw with ⟨g, hi, hkd, hk, hw_⟩ | ⟨rfl, h1⟩
    rotate_left
    · exact ⟨G, kon_skip h1, h⟩
    clear hw; have hw := hw_; clear hw_
    rw [kstep, kon_eq (snd_get hi) hkd]
    have hs : g.2 = .value := skd_value (hkd.elim (fun h => by cases h) fun h => by injection h)
    obtain ⟨w1, t, h1, hw_⟩ := bind_ok hw; clear hw; have hw := hw_; clear hw_
    obtain ⟨w2, x, h2, hw_⟩ := bind_ok hw; clear hw; have hw := hw_; clear hw_
    obtain ⟨rfl, rfl⟩ := copy_ok hg h2
    obtain ⟨_, ⟨h3, _⟩ | ⟨_, h3, _⟩⟩ := own_ownerFor h h1
    · cases h3
    refine ⟨_, ?_, (own_push (o := ⟨.transient, g.1.v, t⟩) (s := .transient) (F' := []) h3 (fun _ h => by cases h) rfl (fun _ => ⟨List.mem_cons_self .., fun h => by cases h⟩)
      (vgd_mono (h3.2.obj i g hi) fun _ h => h.imp_right fun h => by rw [hs] at h; cases h.1) hw).1⟩
    rw [List.map_append]; rfl
  | transientMove i =>
    rcases with_ok h hw with ⟨g, hi, hkd, hk, hw_⟩ | ⟨rfl, h1⟩
    rotate_left
    · exact ⟨G, kon_skip h1, h⟩
    clear hw; have hw := hw_; clear hw_
    rw [kstep, kon_eq (snd_get hi) hkd]
    have hs : g.2 = .value := skd_value (hkd.elim (fun h => by cases h) fun h => by injection h)
    obtain ⟨w1, x, h1, hw_⟩ := bind_ok hw; clear hw; have hw := hw_; clear hw_
    obtain ⟨rfl, hv⟩ := empty_ok hg h h1
    obtain ⟨w2, _, h2, hw_⟩ := bind_ok hw; clear hw; have hw := hw_; clear hw_
    cases h2
    have hl := h.2.loose (g' := ({ g.1 with v := x }, .value)) (F' := []) hi (fun _ h => h) (fun h => by cases h) (fun h => by cases h)
    have h6 := own_set (f := fun h => { h with v := x }) (s := .value) (F' := []) h hi (fun _ h => by cases h) (hk.trans (by rw [hs])) (fun h => by cases h)
      (vgd_mono hv fun t ht => .inl (mt (OwnG.live_set hi (fun _ h => .inl h) (fun h => by cases h) t) ht))
    obtain ⟨w3, t, h3, hw_⟩ := bind_ok hw; clear hw; have hw := hw_; clear hw_
    obtain ⟨hm, ⟨h7, _⟩ | ⟨_, h7, h8⟩⟩ := own_ownerFor h6 h3
    · cases h7
    refine ⟨_, ?_, (own_push (s := .transient) (F' := []) h7 (fun _ h => by cases h) rfl (fun _ => ⟨List.mem_cons_self .., fun h => by cases h⟩) (by
      rw [hm]
      exact vgd_mono hl fun t ht => .inl (mt (h8 t) ht)) hw).1⟩
    rw [List.map_append, ← hs, Gc.snd_set hi]; rfl
  | persistent i =>
    rcases with_ok h hw with ⟨g, hi, hkd, hk, hw_⟩ | ⟨rfl, h1⟩
    rotate_left
    · exact ⟨G, kon_skip h1, h⟩
    clear hw; have hw := hw_; clear hw_
    rw [kstep, kon_eq (snd_get hi) hkd]
    obtain ⟨w1, t, h1, hw_⟩ := bind_ok hw; clear hw; have hw := hw_; clear hw_
    obtain ⟨w2, _, h2, hw_⟩ := bind_ok hw; clear hw; have hw := hw_; clear hw_
    obtain ⟨w3, x, h3, hw_⟩ := bind_ok hw; clear hw; have hw := hw_; clear hw_
    obtain ⟨rfl, rfl⟩ := copy_ok hg h3
    obtain ⟨_, ⟨h4, _⟩ | ⟨_, h4, _⟩⟩ := own_ownerFor h h1
    · cases h4
    obtain ⟨h7, h8, _, _⟩ := own_setOwner (F' := []) h4 hi (List.mem_cons_self ..) (fun x hx => by cases hx) h2
    refine ⟨_, ?_, (own_push (o := ⟨.value, g.1.v, 0⟩) (s := .value) h7 (fun _ h => h) rfl (fun h => by cases h) (vgd_mono h8 fun _ => .inl) hw).1⟩
    rw [List.map_append, Gc.snd_set hi]; rfl
  | persistentMove i =>
    rcases with_ok h hw with ⟨g, hi, hkd, hk, hw_⟩ | ⟨rfl, h1⟩
    rotate_left
    · exact ⟨G, kon_skip h1, h⟩
    clear hw; have hw := hw_; clear hw_
    rw [kstep, kon_eq (snd_get hi) hkd]
    have hs : g.2.moved true = .shell := by
      cases hs : g.2 with
      | value => rw [hs] at hkd; rcases hkd with h | h <;> cases h
      | transient => rfl
      | shell => rfl
    have hkt : g.1.kd = SKd.shell.kd := by
      rw [hk]
      cases hs' : g.2 with
      | value => rw [hs'] at hs; cases hs
      | transient => rfl
      | shell => rfl
    obtain ⟨w1, x, h1, hw_⟩ := bind_ok hw; clear hw; have hw := hw_; clear hw_
    obtain ⟨rfl, hv⟩ := empty_ok hg h h1
    obtain ⟨w2, _, h2, hw_⟩ := bind_ok hw; clear hw; have hw := hw_; clear hw_
    cases h2
    have hl := h.2.loose (g' := ({ g.1 with v := x }, .shell)) (F' := []) hi (fun _ h => h) (fun h => by cases h) (fun h => by cases h)
    have h6 := own_set (f := fun h => { h with v := x }) (s := .shell) (F' := []) h hi (fun _ h => by cases h) hkt (fun h => by cases h)
      (vgd_mono hv fun t ht => .inl (mt (OwnG.live_set hi (fun _ h => .inl h) (fun h => by cases h) t) ht))
    refine ⟨_, ?_, (own_push (o := ⟨.value, g.1.v, 0⟩) (s := .value) h6 (fun _ h => h) rfl (fun h => by cases h) (vgd_mono hl fun _ => .inl) hw).1⟩
    rw [List.map_append, List.map_set, hs]; rfl
  | apply i o =>
    rcases with_ok h hw with ⟨g, hi, hkd, hk, hw_⟩ | ⟨rfl, h1⟩
    rotate_left
    · exact ⟨G, kon_skip h1, h⟩
    clear hw; have hw := hw_; clear hw_
    rw [kstep, kon_eq (snd_get hi) hkd]
    have hs : g.2 = .value := skd_value (hkd.elim (fun h => by cases h) fun h => by injection h)
    exact own_apply hg hE h hi hs hw
  | applyMove i o =>
    rcases with_ok h hw with ⟨g, hi, hkd, hk, hw_⟩ | ⟨rfl, h1⟩
    rotate_left
    · exact ⟨G, kon_skip h1, h⟩
    clear hw; have hw := hw_; clear hw_
    rw [kstep, kon_eq (snd_get hi) hkd]
    have hs : g.2 = .value := skd_value (hkd.elim (fun h => by cases h) fun h => by injection h)
    rw [if_pos hg] at hw
    exact own_apply hg hE h hi hs hw
  | applyMut i o =>
    rcases with_ok h hw with ⟨g, hi, hkd, hk, hw_⟩ | ⟨rfl, h1⟩
    rotate_left
    · exact ⟨G, rfl, h⟩
    clear hw; have hw := hw_; clear hw_
    have hs : g.2 = .transient := by
      cases hs : g.2 with
      | transient => rfl
      | value => rw [hs] at hkd; rcases hkd with h | h <;> cases h
      | shell => exact absurd (by rw [snd_get hi, hs]) hx
    exact own_inPlace hg hE h hi hs hw

end FlexHeap
