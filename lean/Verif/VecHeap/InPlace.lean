import Verif.VecHeap.CostProps

/-!
# Working in place (C53)

What an operation in place leaves behind: the nodes on the way to the element it has changed belong to the object, so that the
next operation on the same leaf changes them where they are.
-/

namespace VecHeap
open Mm Rrb

section
variable {T β : Type} {c : Cfg} {E : Env Dat T} {kd : Kind} {n e i : Nat} {s : St Dat T} {v : Vc}

/-! ### What it costs to change nodes that may be changed -/

theorem mutableTail_eq (h : Mine E s.mem e v) {k : Nat} : v.mutableTail c E e k s = .ok s v := by
  obtain ⟨cl, h1, h2⟩ := h
  unfold Vc.mutableTail
  rw [bind_ok (canMutate_eq h1), if_pos h2]; rfl

theorem spent_push (h : Mine E s.mem e v) (hr : v.size - v.off c < 2 ^ c.BL) (x : T) (hs : s.fault = some (kd, n)) :
    Spent kd n (fun _ => 0) (v.pushBackMut c E e x s) (v.pushBackMut c E e x s.calm) := by
  unfold Vc.pushBackMut
  rw [if_pos hr, bind_ok (mutableTail_eq h), bind_ok (mutableTail_eq (s := s.calm) h)]
  exact (uses_bind (uses_construct _ _ _) (Nat.le_refl _) fun _ => uses_ret _ : Uses kd 0 _) s n hs (Nat.zero_le _)

/-- a full tail: it is not copied -/
theorem spent_push_full (x : T) (hr : ¬ v.size - v.off c < 2 ^ c.BL) (hs : s.fault = some (kd, n)) (hn : amt (levels c v.shift + 2) 0 0 0 kd ≤ n) :
    Spent kd n (fun _ => amt (levels c v.shift + 2) 0 0 0 kd) (v.pushBackMut c E e x s) (v.pushBackMut c E e x s.calm) := by
  unfold Vc.pushBackMut
  rw [if_neg hr]
  have : Uses kd (amt (levels c v.shift + 2) 0 0 0 kd) ((leafOf c E (some e) x).bind fun nt =>
      (if v.off c = 2 ^ c.B <<< v.shift then
        (newInner c E (some e) 2).bind fun nr =>
          (((makePath c E (some e) (levels c v.shift) v.tail).bind fun path =>
            (putKid nr 0 v.root).bind fun _ => (putKid nr 1 path).bind fun _ =>
              M.ret (Vc.mk (v.size + 1) (v.shift + c.B) nr nt))).guard (delInnerE c nr)
      else if v.off c ≠ 0 then
        (pushTailMut c E e v.tail (levels c v.shift) v.root (v.shp c)).bind fun nr =>
          M.ret (Vc.mk (v.size + 1) v.shift nr nt)
      else
        (makePath c E (some e) (levels c v.shift) v.tail).bind fun nr =>
          (decEmpty c E v.root).bind fun _ => M.ret (Vc.mk (v.size + 1) v.shift nr nt)).guard (delLeaf c E nt 1)) := by
    uses
  exact this s n hs hn

theorem spent_path {O : List Nat} : ∀ {l p : Nat} {sh : Shp} {idx : Nat} {s : St Dat T}, Path c E s.mem e O l p sh idx → s.fault = some (kd, n) →
    Spent kd n (fun _ => 0) (getMut c E e l p sh idx s) (getMut c E e l p sh idx s.calm)
  | 0, p, sh, idx, s, h, hs => by
    obtain ⟨-, cl, h1, h2⟩ := h
    unfold getMut
    by_cases hl : sh.isLeaf = true
    · rw [if_pos hl, bind_ok (canMutate_eq h1), bind_ok (canMutate_eq (s := s.calm) h1), if_pos h2]
      exact (uses_bind (uses_liftO _) (Nat.le_refl _) fun _ => uses_ret _ : Uses kd 0 _) s n hs (Nat.zero_le _)
    · rw [if_neg hl]; rfl
  | l + 1, p, sh, idx, s, h, hs => by
    obtain ⟨-, cl, h1, h2, off, sh', q, cap, tb, ks, h3, h4, h5, h6, h7⟩ := h
    unfold getMut
    rw [bind_ok (liftO_eq h3), bind_ok (liftO_eq h3), bind_ok (canMutate_eq h1), bind_ok (canMutate_eq (s := s.calm) h1), if_pos h2, bind_ok (liftO_eq h4), bind_ok (liftO_eq h4),
      bind_ok (kid_eq h1 h5 h6), bind_ok (kid_eq (s := s.calm) h1 h5 h6)]
    refine spent_bind (spent_path h7 hs) fun s' b n' hs' hn' => ?_
    exact spent_mono ((uses_bind (uses_putKid _ _ _) (Nat.le_refl _) fun _ => uses_ret _ : Uses kd 0 _) s' n' hs' (Nat.zero_le _)) fun _ => by omega

theorem spent_getMut {j : Nat} (h : Ready c E s.mem e v j) (hs : s.fault = some (kd, n)) : Spent kd n (fun _ => 0) (v.getMut c E e j s) (v.getMut c E e j s.calm) := by
  unfold Ready at h
  unfold Vc.getMut
  by_cases h1 : v.off c ≤ j
  · rw [if_pos h1] at h
    rw [if_pos h1, bind_ok (mutableTail_eq h), bind_ok (mutableTail_eq (s := s.calm) h)]
    exact (uses_ret _ : Uses kd 0 _) s n hs (Nat.zero_le _)
  · rw [if_neg h1] at h
    rw [if_neg h1]
    refine spent_bind (spent_path h hs) fun s' b n' hs' hn' => ?_
    exact spent_mono ((uses_ret _ : Uses kd 0 _) s' n' hs' (Nat.zero_le _)) fun _ => by omega

/-! ### Elements of the same leaf -/

/-- the position of an inner node whose children are at level `l` -/
def Shp.At (c : Cfg) (l : Nat) : Shp → Prop
  | .reg s _ | .regSub s _ | .full s => s = c.BL + c.B * l
  | _ => True

theorem same_shift {i j s : Nat} (h : i / 2 ^ c.BL = j / 2 ^ c.BL) (hs : c.BL ≤ s) : i >>> s = j >>> s := by
  obtain ⟨d, rfl⟩ := Nat.exists_eq_add_of_le hs
  rw [Nat.shiftRight_eq_div_pow, Nat.shiftRight_eq_div_pow, Nat.pow_add, ← Nat.div_div_eq_div_mul, ← Nat.div_div_eq_div_mul, h]

theorem at_towards (hB : 0 < c.B) {l off : Nat} {sh sh' : Shp} (h : sh.At c (l + 1)) (ht : sh.towards c off = some sh') : sh'.At c l := by
  have hne : c.BL + c.B * (l + 1) ≠ c.BL := by
    have := Nat.mul_pos hB (show 0 < l + 1 by omega)
    omega
  have hsub : c.BL + c.B * (l + 1) - c.B = c.BL + c.B * l := by rw [Nat.mul_succ]; omega
  have hfull : (Shp.kidFull c (c.BL + c.B * (l + 1))).At c l := by
    unfold Shp.kidFull
    rw [if_neg hne]; exact hsub
  have hreg : ∀ size, (Shp.kidReg c (c.BL + c.B * (l + 1)) size).At c l := by
    intro size
    unfold Shp.kidReg
    rw [if_neg hne]; exact hsub
  cases sh <;> simp only [Shp.towards, Option.some.injEq, reduceCtorEq] at ht
  all_goals
    have h : _ = c.BL + c.B * (l + 1) := h
    subst h
  · subst ht; split
    · exact hfull
    · exact hreg _
  · subst ht; split
    · exact hfull
    · exact hreg _
  · subst ht; exact hfull

theorem Path.same (hB : 0 < c.B) {m : Mem Dat T} {O : List Nat} {i j : Nat} (hij : i / 2 ^ c.BL = j / 2 ^ c.BL) : ∀ {l p : Nat} {sh : Shp}, sh.At c (l - 1) → Path c E m e O l p sh i → Path c E m e O l p sh j
  | 0, _, _, _, h => h
  | l + 1, p, sh, ha, h => by
    obtain ⟨h0, cl, h1, h2, off, sh', q, cap, tb, ks, h3, h4, h5, h6, h7⟩ := h
    have ha : sh.At c l := ha
    refine ⟨h0, cl, h1, h2, off, sh', q, cap, tb, ks, ?_, h4, h5, h6, ?_⟩
    · rw [← h3]
      cases sh <;> simp only [Shp.towards, reduceCtorEq] at h4
      all_goals
        have ha : _ = c.BL + c.B * l := ha
        subst ha
        simp only [Shp.index, Shp.pos, Pos.index]
        rw [same_shift hij (Nat.le_add_right _ _)]
    · cases l with
      | zero => exact h7
      | succ l => exact Path.same hB hij (at_towards hB ha h4) h7

theorem off_le {j : Nat} (hij : i / 2 ^ c.BL = j / 2 ^ c.BL) (h : v.off c ≤ i) : v.off c ≤ j := by
  by_cases h0 : v.size = 0
  · have : v.off c = 0 := by unfold Vc.off Vec.tailOffset; rw [if_neg (by simp [h0])]
    omega
  obtain ⟨⟨d, hd⟩, -, -⟩ := Vec.tailOffset_spec (c := c) (Nat.pos_of_ne_zero h0)
  have hd : v.off c = 2 ^ c.BL * d := hd
  have hp := Nat.two_pow_pos c.BL
  rw [hd] at h ⊢
  have : d ≤ i / 2 ^ c.BL := (Nat.le_div_iff_mul_le hp).mpr (by rw [Nat.mul_comm]; exact h)
  rw [hij] at this
  have := (Nat.le_div_iff_mul_le hp).mp this
  rw [Nat.mul_comm]; exact this

theorem Ready.same (hB : 0 < c.B) {m : Mem Dat T} {j : Nat} (hsh : v.shift = c.BL + c.B * (levels c v.shift - 1)) (hij : i / 2 ^ c.BL = j / 2 ^ c.BL) (h : Ready c E m e v i) : Ready c E m e v j := by
  unfold Ready at h ⊢
  by_cases h1 : v.off c ≤ i
  · rw [if_pos h1] at h
    rw [if_pos (off_le hij h1)]
    exact h
  · rw [if_neg h1] at h
    rw [if_neg fun h2 => h1 (off_le hij.symm h2)]
    exact Path.same hB hij hsh h

/-! ### Changing an element leaves owners and counts alone -/

/-- cells have the same counts, owners and children -/
def Heads (m m' : Mem Dat T) : Prop := ∀ a cl, m a = some cl → ∃ cl', m' a = some cl' ∧ cl'.rc = cl.rc ∧ cl'.tok = cl.tok ∧ cl'.data = cl.data

theorem Heads.refl (m : Mem Dat T) : Heads m m := fun _ cl h => ⟨cl, h, rfl, rfl, rfl⟩

theorem Heads.trans {m m' m'' : Mem Dat T} (h : Heads m m') (h' : Heads m' m'') : Heads m m'' := by
  intro a cl hc
  obtain ⟨c1, h1, h2, h3, h4⟩ := h a cl hc
  obtain ⟨c2, k1, k2, k3, k4⟩ := h' a c1 h1
  exact ⟨c2, k1, k2.trans h2, k3.trans h3, k4.trans h4⟩

theorem heads_setEls {p : Nat} {l : List (Slot T)} : Out (setEls (D := Dat) p l s) (fun s' _ => Heads s.mem s'.mem) (fun _ => True) ∨ setEls (D := Dat) p l s = .ub := by
  unfold setEls Mm.modify
  cases hc : s.mem p with
  | none => exact .inr rfl
  | some cp =>
    left
    intro a cl ha
    by_cases hap : a = p
    · subst hap
      rw [hc] at ha; cases ha
      exact ⟨_, upd_self, rfl, rfl, rfl⟩
    · exact ⟨cl, by show upd _ _ _ a = _; rw [upd_ne hap]; exact ha, rfl, rfl, rfl⟩

/-- if it returns -/
def Leaves (x : HM T β) : Prop := ∀ s s' b, x s = .ok s' b → Heads s.mem s'.mem

theorem leaves_bind {δ : Type} {x : HM T β} {f : β → HM T δ} (hx : Leaves x) (hf : ∀ b, Leaves (f b)) : Leaves (x.bind f) := by
  intro s s' b h
  simp only [M.bind] at h
  cases hxs : x s with
  | ok s1 b1 => rw [hxs] at h; exact (hx _ _ _ hxs).trans (hf _ _ _ _ h)
  | thrown _ => rw [hxs] at h; cases h
  | ub => rw [hxs] at h; cases h

theorem leaves_ret (b : β) : Leaves (M.ret b : HM T β) := by
  intro s s' b' h
  cases h
  exact .refl _

theorem leaves_undef : Leaves (undef : HM T β) := fun _ _ _ h => by cases h

theorem leaves_guard {x : HM T β} {hd : HM T Unit} (hx : Leaves x) : Leaves (x.guard hd) := by
  intro s s' b h
  simp only [M.guard] at h
  cases hxs : x s with
  | ok s1 b1 => rw [hxs] at h; cases h; exact hx _ _ _ hxs
  | thrown s1 =>
    rw [hxs] at h
    simp only at h
    cases hh : hd s1 <;> rw [hh] at h <;> cases h
  | ub => rw [hxs] at h; cases h

theorem leaves_cell (p : Nat) : Leaves (cell p : HM T _) := by
  intro s s' b h
  unfold cell at h
  cases hc : s.mem p <;> rw [hc] at h <;> cases h
  exact .refl _

theorem leaves_setEls (p : Nat) (l : List (Slot T)) : Leaves (setEls p l : HM T Unit) := by
  intro s s' b h
  rcases heads_setEls (s := s) (p := p) (l := l) with h' | h'
  · rw [h] at h'; exact h'
  · rw [h] at h'; cases h'

theorem leaves_tick (k : Kind) : Leaves (tick k : HM T Unit) := by
  intro s s' b h
  have : s'.mem = s.mem := by
    unfold tick at h
    split at h
    · cases h; rfl
    · split at h
      · split at h
        · cases h
        · cases h; rfl
      · cases h; rfl
  rw [this]
  exact .refl _

theorem leaves_moveEl (p i : Nat) : Leaves (moveEl p i : HM T T) :=
  leaves_bind (leaves_cell p) fun cl => by
    split
    · exact leaves_bind (leaves_setEls _ _) fun _ => leaves_ret _
    · exact leaves_undef

theorem leaves_assignEl (p i : Nat) (x : T) : Leaves (assignEl p i x : HM T Unit) :=
  leaves_bind (leaves_cell p) fun cl => by
    split
    · exact leaves_setEls _ _
    · exact leaves_setEls _ _
    · exact leaves_undef

theorem leaves_applyFn (fn : Fn T) (p i : Nat) : Leaves (applyFn fn p i) :=
  leaves_bind (leaves_moveEl p i) fun x => leaves_bind (leaves_guard (by split; exact leaves_tick _; exact leaves_ret _)) fun _ => leaves_assignEl _ _ _

theorem Ready.heads {m m' : Mem Dat T} (hh : Heads m m') (h : Ready c E m e v i) : Ready c E m' e v i := by
  unfold Ready at h ⊢
  by_cases ho : v.off c ≤ i
  · rw [if_pos ho] at h ⊢
    obtain ⟨cl, h1, h2⟩ := h
    obtain ⟨cl', h3, h4, h5, _⟩ := hh _ _ h1
    exact ⟨cl', h3, by unfold mutable at *; rw [h4, h5]; exact h2⟩
  · rw [if_neg ho] at h ⊢
    exact h.congr (fun _ h => h) fun a cl _ hc _ => hh a cl hc

end

/-! ### Calls -/

section
variable {T : Type} {c : Cfg} {E : Env Dat T} {er et : Nat} {w w1 : World T} {M : List (Spec.SObj T)} {G : List (Gh T)} {i j k n e : Nat} {g : Gh T} {s : Spec.SObj T} {kd : Kind}

/-- the index of the element that an operation on `ℓ` elements changes -/
def touched (ℓ : Nat) : VecOp T → Option Nat
  | .push _ => some ℓ
  | .set i _ => some i
  | .update i _ => some i
  | .take _ => none

/-- a call that works in place: on a transient, or, with reference counts, on an rvalue -/
def OnPlace (gc : Bool) (kd : Spec.SKd) (i : Nat) (o : VecOp T) (x : Cmd T (VecOp T)) : Prop :=
  (kd = .transient ∧ x = .applyMut i o) ∨ (gc = false ∧ kd = .value ∧ x = .applyMove i o)

theorem Is.length (hB : 0 < c.B) {v : Vc} {t : Tree T} {l : List T} (hi : Is v t) (hv : Vec.Inv c t l) : v.size = l.length := by
  obtain ⟨pre, tl, rfl, hp⟩ := parts hB hi hv
  rw [hp.size]; simp

/-- the last element is in the tail -/
theorem ready_last {m : Mem Dat T} {v : Vc} {l : List T} (hs : v.size = l.length) (hl : l.length = j + 1) (h : Mine E m e v) : Ready c E m e v j := by
  unfold Ready
  have := (Vec.tailOffset_spec (c := c) (n := v.size) (by omega)).2.1
  rw [if_pos (show Vc.off c v ≤ j by unfold Vc.off; omega)]
  exact h

/-- the tree of an object in an operation in place -/
theorem place_inv {Good : Tree T → List T → Prop} (h : RelG c E Good er et w G M) (hg : G[i]? = some g) (hl : Local E.gc g s) (he : E.gc = true → s.kd = .transient ∧ e = g.obj.tok) :
    ∃ (u : Toks E.gc) (L : List (Ref (Val T))), (E.gc = true → u.live e) ∧ Inv (sys c E u) w.st.mem [] (refs g.obj.v g.N e ++ L) := by
  obtain ⟨hp1, hp2⟩ := at_perm hg
  have hp := h.sound.perm hp1
  have hgm : g ∈ g :: G.eraseIdx i := List.mem_cons_self
  refine ⟨toks E.gc w.next (acts (g :: G.eraseIdx i)), sRefs T er et ++ (G.eraseIdx i).flatMap Gh.refs, ?_, ?_⟩
  · intro hgc
    obtain ⟨hk', rfl⟩ := he hgc
    have ha : g.act = true := by rw [hl.2.1, hgc, hk']; rfl
    have := acts_mem hgm ha
    exact ⟨hgc, (hp.lt _ this).1, .inl this⟩
  · by_cases hgc : E.gc = true
    · obtain ⟨hk', rfl⟩ := he hgc
      by_cases h0 : g.t = 0
      · refine inv_retoks hp.first ?_ _
        rw [h0]; exact (toks E.gc w.next _).live0
      · have hf := hp.first
        rw [(hp.tok g hgm h0).2] at hf
        exact hf
    · refine inv_retoks hp.first ?_ _
      rintro ⟨a, _⟩
      exact hgc a

/-- what an operation in place leaves behind -/
theorem place_ready (hB : 0 < c.B) (hE : E.Fresh) (h : RelG c E (Vec.Inv c) er et w G M) (hg : G[i]? = some g) (hl : Local E.gc g s) (hgo : w.objs[i]? = some g.obj)
    (he : E.gc = true → s.kd = .transient ∧ e = g.obj.tok) {o : VecOp T} {l' : List T} (hr : (Spec.vecOps T).run o s.val = some l') (hj : touched s.val.length o = some j)
    (hc : inPlace (vectorKit T c) E er et i e g.obj o w = .ok w1 ()) :
    ∃ ob, w1.objs[i]? = some ob ∧ ob.kd = g.obj.kd ∧ ob.tok = g.obj.tok ∧ Ready c E w1.st.mem e ob.v j := by
  obtain ⟨u, L, hlive, hi⟩ := place_inv h hg hl he
  obtain ⟨hv, his⟩ := h.sound.tree g (List.mem_of_getElem? hg)
  rw [hl.2.2] at hv
  have hobj : ∀ v, (w.objs.modify i fun h => { h with v := v })[i]? = some { g.obj with v := v } := by
    intro v
    rw [modify_set hgo]
    exact List.getElem?_set_self (List.getElem?_eq_some_iff.mp hgo).1
  have hget : ∀ {q : Nat} {fn : Fn T}, q < s.val.length →
      (lift (T := T) ((g.obj.v.getMut c E e q).bind fun r => Mm.M.ret (r.1, some (r.2.1, r.2.2, fn)))).bind (fun r => (setVc i r.1).bind fun _ =>
        match r.2 with
        | none => WM.ret ()
        | some (p, j, fn) => lift (applyFn fn p j)) w = .ok w1 () →
      ∃ ob, w1.objs[i]? = some ob ∧ ob.kd = g.obj.kd ∧ ob.tok = g.obj.tok ∧ Ready c E w1.st.mem e ob.v q := by
    intro q fn hq hc
    have h1 := vcGetMut_ready hB hE hlive his hv hq hi
    simp only [WM.bind, lift, Mm.M.bind] at hc
    cases hx : g.obj.v.getMut c E e q w.st with
    | ub => rw [hx] at hc; cases hc
    | thrown _ => rw [hx] at hc; cases hc
    | ok s1 r =>
      rw [hx] at hc h1
      obtain ⟨-, -, -, h4⟩ := h1
      simp only [Mm.M.ret, setVc, lift] at hc
      cases hy : applyFn fn r.2.1 r.2.2 s1 with
      | ub => rw [hy] at hc; cases hc
      | thrown _ => rw [hy] at hc; cases hc
      | ok s2 b =>
        rw [hy] at hc
        cases hc
        exact ⟨_, hobj r.1, rfl, rfl, h4.heads (leaves_applyFn _ _ _ _ _ _ hy)⟩
  cases o with
  | push x =>
    cases hj
    obtain ⟨t', ht', hv'⟩ := Vec.pushBack_spec hB hv x
    have h1 := pushBackMut_mine hB hE hlive his hv ht' hi
    simp only [inPlace, vectorKit, WM.bind, lift, Mm.M.bind] at hc
    cases hx : g.obj.v.pushBackMut c E e x w.st with
    | ub => rw [hx] at hc; cases hc
    | thrown _ => rw [hx] at hc; cases hc
    | ok s1 v1 =>
      rw [hx] at hc h1
      cases hc
      refine ⟨_, hobj v1, rfl, rfl, ?_⟩
      obtain ⟨⟨h2, -⟩, h3⟩ := h1
      exact ready_last (h2.length hB hv') (by simp) h3
  | set q x =>
    cases hj
    refine hget (fn := ⟨false, fun _ => x, id⟩) ?_ hc
    by_contra hq
    simp [Spec.vecOps, hq] at hr
  | update q f =>
    cases hj
    refine hget (fn := f) ?_ hc
    by_contra hq
    simp [Spec.vecOps, hq] at hr
  | take _ => cases hj

/-- the owner in an operation in place -/
def own (q : Spec.SKd) (ob : Obj) : Nat := if q = .transient then ob.tok else 0

theorem place_call (hB : 0 < c.B) (hE : E.Fresh) (h : Rel c E (Vec.Inv c) er et w M) (hs : M[i]? = some s) {o : VecOp T} {x : Cmd T (VecOp T)} (hx : OnPlace E.gc s.kd i o x)
    (ha : Spec.Allowed (Spec.vecOps T) M x) (hj : touched s.val.length o = some j) {f : Option (Kind × Nat)} (hc : vcall c E er et f x w = .ok w1 ()) :
    ∃ ob, w1.objs[i]? = some ob ∧ Ready c E w1.st.mem (own s.kd ob) ob.v j := by
  obtain ⟨G, h⟩ := h
  obtain ⟨g, hg, hl⟩ : ∃ g, G[i]? = some g ∧ Local E.gc g s := by
    have h1 := (List.forall₂_iff_get.mp h.loc)
    obtain ⟨hlt, rfl⟩ := List.getElem?_eq_some_iff.mp hs
    exact ⟨G[i]'(by rw [h1.1]; exact hlt), List.getElem?_eq_getElem _, h1.2 i (by rw [h1.1]; exact hlt) hlt⟩
  have h' : RelG c E (Vec.Inv c) er et { w with st := { w.st with fault := f } } G M := ⟨h.objs, h.loc, h.sound⟩
  have hgo : w.objs[i]? = some g.obj := by rw [h.objs, List.getElem?_map, hg]; rfl
  rcases hx with ⟨hk, rfl⟩ | ⟨hgc, hk, rfl⟩
  · have hkd : g.obj.kd = .transient := by rw [hl.1, hk]; rfl
    obtain ⟨l', hr⟩ := legal_run (S := Spec.vecOps T) (K := vectorKit T c) hs ha.1
    have hc : inPlace (vectorKit T c) E er et i g.obj.tok g.obj o { w with st := { w.st with fault := f } } = .ok w1 () := by
      rw [← hc]
      simp only [vcall, call, step, withObj]
      rw [hgo]
      simp [hkd]
    obtain ⟨ob, h1, h2, h3, h4⟩ := place_ready hB hE h' hg hl hgo (e := g.obj.tok) (fun _ => ⟨hk, rfl⟩) hr hj hc
    exact ⟨ob, h1, by rw [own, if_pos hk, h3]; exact h4⟩
  · have hkd : g.obj.kd = .value := by rw [hl.1, hk]; rfl
    obtain ⟨l', hr⟩ := legal_run (S := Spec.vecOps T) (K := vectorKit T c) hs ha
    have hc : inPlace (vectorKit T c) E er et i 0 g.obj o { w with st := { w.st with fault := f } } = .ok w1 () := by
      rw [← hc]
      simp only [vcall, call, step, withObj]
      rw [hgo]
      simp [hkd, hgc]
    obtain ⟨ob, h1, h2, h3, h4⟩ := place_ready hB hE h' hg hl hgo (e := 0) (fun h => by rw [hgc] at h; cases h) hr hj hc
    exact ⟨ob, h1, by rw [own, if_neg (by rw [hk]; decide)]; exact h4⟩

theorem within_lift {β : Type} {x : HM T β} (hx : Spent kd n (fun _ => k) (x w.st) (x w.st.calm)) : Within kd k n (lift x w) (lift x w.calm) := by
  simp only [lift]
  rw [show w.calm.st = w.st.calm from rfl]
  cases h : x w.st with
  | ok s' b =>
    rw [h] at hx
    obtain ⟨n', h2, h3, h4⟩ := hx
    rw [h4]
    exact ⟨n', h2, h3, rfl⟩
  | thrown _ => rw [h] at hx; exact hx.elim
  | ub =>
    rw [h] at hx
    simp only [Spent] at hx
    rw [hx]
    rfl

theorem within_bind {β δ : Type} {x : WM T β} {f : β → WM T δ} {m : Nat} {w0 : World T} (hx : Within kd k n (x w) (x w0))
    (hf : ∀ w' b n', w'.st.fault = some (kd, n') → n ≤ n' + k → Within kd m n' (f b w') (f b w'.calm)) : Within kd (k + m) n (x.bind f w) (x.bind f w0) := by
  simp only [WM.bind]
  cases h : x w with
  | ok w' b =>
    rw [h] at hx
    obtain ⟨n', h1, h2, h3⟩ := hx
    rw [h3]
    have h4 := hf w' b n' h1 h2
    show Within kd (k + m) n (f b w') (f b w'.calm)
    cases hr : f b w' with
    | ok w'' b' =>
      rw [hr] at h4
      obtain ⟨n'', h5, h6, h7⟩ := h4
      exact ⟨n'', h5, by omega, h7⟩
    | thrown _ => rw [hr] at h4; exact h4.elim
    | ub => rw [hr] at h4; exact h4
  | thrown _ => rw [h] at hx; exact hx.elim
  | ub =>
    rw [h] at hx
    simp only [Within] at hx ⊢
    rw [hx]

theorem within_inPlace {K : Kit T} {o : K.Op} {ob : Obj} (hw : w.st.fault = some (kd, n)) (hn : k + amt 0 0 1 0 kd ≤ n)
    (hx : Spent kd n (fun _ => k) (K.applyMut E er et e ob.v o w.st) (K.applyMut E er et e ob.v o w.st.calm)) :
    Within kd (k + amt 0 0 1 0 kd) n (inPlace K E er et i e ob o w) (inPlace K E er et i e ob o w.calm) := by
  have hf : ∀ r : Vc × Option (Nat × Nat × Fn T), WUses kd (amt 0 0 1 0 kd) ((setVc i r.1).bind fun _ => match r.2 with | none => WM.ret () | some (p, j, fn) => lift (applyFn fn p j)) := by
    intro r
    refine wuses_bind (wuses_setVc _ _) (Nat.zero_le _) fun _ => ?_
    split
    · exact wuses_ret _
    · exact wuses_mono (wuses_lift (uses_applyFn _ _ _)) (by omega)
  exact within_bind (within_lift hx) fun w' r n' h1 h2 => hf r w' n' h1 (by omega)

theorem off_le_size {v : Vc} : v.off c ≤ v.size := by
  by_cases h0 : v.size = 0
  · have : v.off c = 0 := by unfold Vc.off Vec.tailOffset; rw [if_neg (by simp [h0])]
    omega
  · exact Nat.le_of_lt (Vec.tailOffset_spec (c := c) (Nat.pos_of_ne_zero h0)).2.1

/-- the tail has room for another element of its leaf -/
theorem tail_room {v : Vc} (hj : j < v.size) (h : j / 2 ^ c.BL = v.size / 2 ^ c.BL) : v.size - v.off c < 2 ^ c.BL := by
  obtain ⟨⟨d, hd⟩, h1, h2⟩ := Vec.tailOffset_spec (c := c) (n := v.size) (by omega)
  have hp := Nat.two_pow_pos c.BL
  unfold Vc.off
  by_contra hc
  have he : v.size = 2 ^ c.BL * (d + 1) := by rw [Nat.mul_succ]; omega
  rw [he, Nat.mul_div_cancel_left _ hp] at h
  have := Nat.div_mul_le_self j (2 ^ c.BL)
  rw [h, Nat.mul_comm, ← he] at this
  omega

/-- the cost of an operation on an element in a leaf of the object -/
theorem spent_ready {st : St Dat T} {v : Vc} {o : VecOp T} (hr : Ready c E st.mem e v j) (ho : touched v.size o = some j) (hs : st.fault = some (kd, n)) (hfull : (∃ x, o = .push x) → v.size - v.off c < 2 ^ c.BL) :
    Spent kd n (fun _ => 0) ((vectorKit T c).applyMut E er et e v o st) ((vectorKit T c).applyMut E er et e v o st.calm) := by
  cases o with
  | push x =>
    cases ho
    have hm : Mine E st.mem e v := by
      unfold Ready at hr
      rw [if_pos (show v.off c ≤ v.size from off_le_size)] at hr
      exact hr
    exact spent_bind (spent_push hm (hfull ⟨x, rfl⟩) x hs) fun s' b n' hs' hn' => spent_mono ((uses_ret _ : Uses kd 0 _) s' n' hs' (Nat.zero_le _)) fun _ => by omega
  | set q x =>
    cases ho
    exact spent_bind (spent_getMut hr hs) fun s' b n' hs' hn' => spent_mono ((uses_ret _ : Uses kd 0 _) s' n' hs' (Nat.zero_le _)) fun _ => by omega
  | update q f =>
    cases ho
    exact spent_bind (spent_getMut hr hs) fun s' b n' hs' hn' => spent_mono ((uses_ret _ : Uses kd 0 _) s' n' hs' (Nat.zero_le _)) fun _ => by omega
  | take _ => cases ho

/-- bounds for a call in place -/
theorem place_within {K : Kit T} {o : K.Op} {ob : Obj} {x : Cmd T K.Op} {q : Spec.SKd} (hb : w.objs[i]? = some ob) (hk : ob.kd = q.kd)
    (hx : (q = .transient ∧ x = .applyMut i o) ∨ (E.gc = false ∧ q = .value ∧ x = .applyMove i o)) (hn : k + amt 0 0 1 0 kd ≤ n)
    (hs : Spent kd n (fun _ => k) (K.applyMut E er et (own q ob) ob.v o { w.st with fault := some (kd, n) }) (K.applyMut E er et (own q ob) ob.v o w.st.calm)) :
    Within kd (k + amt 0 0 1 0 kd) n (call c K E er et (some (kd, n)) x w) (call c K E er et none x w) := by
  have h1 := within_inPlace (w := { w with st := { w.st with fault := some (kd, n) } }) (i := i) rfl hn hs
  rcases hx with ⟨rfl, rfl⟩ | ⟨hgc, rfl, rfl⟩
  · simp only [call, step, withObj]
    rw [hb]
    have : ob.kd = .transient := hk
    simp only [this, or_true, if_true]
    exact h1
  · simp only [call, step, withObj]
    rw [hb]
    have : ob.kd = .value := hk
    simp only [this, or_true, if_true, hgc]
    exact h1

theorem touched_lt {o : VecOp T} {l l' : List T} (hr : (Spec.vecOps T).run o l = some l') (hj : touched l.length o = some j) : j < l'.length := by
  cases o with
  | push x => cases hj; simp only [Spec.vecOps, Option.some.injEq] at hr; subst hr; simp
  | set q x =>
    cases hj
    by_cases hq : j < l.length
    · simp [Spec.vecOps, hq] at hr; subst hr; simpa using hq
    · simp [Spec.vecOps, hq] at hr
  | update q f =>
    cases hj
    by_cases hq : j < l.length
    · simp [Spec.vecOps, hq] at hr; subst hr; simpa using hq
    · simp [Spec.vecOps, hq] at hr
  | take _ => cases hj

/-- what a call in place does to the object -/
theorem place_step {gc : Bool} {o : VecOp T} {x : Cmd T (VecOp T)} (hs : M[i]? = some s) (hx : OnPlace gc s.kd i o x) (ha : Spec.Allowed (Spec.vecOps T) M x) :
    ∃ l', (Spec.vecOps T).run o s.val = some l' ∧ (Spec.step (Spec.vecOps T) gc M x)[i]? = some ⟨s.kd, l'⟩ := by
  have hlt := (List.getElem?_eq_some_iff.mp hs).1
  rcases hx with ⟨hk, rfl⟩ | ⟨hgc, hk, rfl⟩
  · obtain ⟨l', hr⟩ := Option.ne_none_iff_exists'.mp (ha.1 s hs)
    refine ⟨l', hr, ?_⟩
    simp only [Spec.step, Spec.on]
    rw [hs]
    simp only [hk, Spec.SKd.kd, or_true, if_true, hr, Option.map_some, Option.getD_some]
    exact List.getElem?_set_self hlt
  · obtain ⟨l', hr⟩ := Option.ne_none_iff_exists'.mp (ha s hs)
    refine ⟨l', hr, ?_⟩
    simp only [Spec.step, Spec.on]
    rw [hs]
    simp only [hk, hgc, Spec.SKd.kd, or_true, if_true, hr, Option.map_some, Option.getD_some, Bool.false_eq_true, if_false]
    exact List.getElem?_set_self hlt

theorem rel_kd {Good : Tree T → List T → Prop} {ob : Obj} (h : Rel c E Good er et w M) (hs : M[i]? = some s) (hb : w.objs[i]? = some ob) : ob.kd = s.kd.kd := by
  obtain ⟨G, h⟩ := h
  have h1 := (List.forall₂_iff_get.mp h.loc)
  obtain ⟨hlt, rfl⟩ := List.getElem?_eq_some_iff.mp hs
  have hlt' : i < G.length := by rw [h1.1]; exact hlt
  rw [h.objs, List.getElem?_map, List.getElem?_eq_getElem hlt'] at hb
  cases hb
  exact (h1.2 i hlt' hlt).1

/-- **C53.**  An operation in place on a transient, or with reference counts on an rvalue, that follows another one on an element of
the same leaf allocates nothing and copies nothing, wherever the leaf is and however many objects share the rest. -/
theorem C53_same_leaf (hB : 0 < c.B) (hE : E.Fresh) (hne : er ≠ et) (h : VReached c E er et w M) {s s' : Spec.SObj T} (hs : M[i]? = some s) {o o' : VecOp T} {x x' : Cmd T (VecOp T)}
    (hx : OnPlace E.gc s.kd i o x) (ha : Spec.Allowed (Spec.vecOps T) M x) (hj : touched s.val.length o = some j) {f : Option (Kind × Nat)} (hc : vcall c E er et f x w = .ok w1 ())
    (hs' : (Spec.step (Spec.vecOps T) E.gc M x)[i]? = some s') (hx' : OnPlace E.gc s'.kd i o' x') (ha' : Spec.Allowed (Spec.vecOps T) (Spec.step (Spec.vecOps T) E.gc M x) x')
    (hk : touched s'.val.length o' = some k) (hjk : j / 2 ^ c.BL = k / 2 ^ c.BL) :
    AtMost c (vectorKit T c) E er et w1 x' .alloc 0 ∧ AtMost c (vectorKit T c) E er et w1 x' .copy 0 ∧ AtMost c (vectorKit T c) E er et w1 x' .user 1 := by
  have hA := vector_laws (T := T) hB hE
  have hr := h.rel hA hne
  have h1 : VReached c E er et w1 (Spec.step (Spec.vecOps T) E.gc M x) := .call h ha (Spec.Terms.free_on _) hc
  have hr1 := h1.rel hA hne
  obtain ⟨ob, hb, hrd⟩ := place_call hB hE hr hs hx ha hj hc
  obtain ⟨l', hl', hst⟩ := place_step hs hx ha
  obtain rfl : s' = ⟨s.kd, l'⟩ := by rw [hst] at hs'; exact (Option.some.inj hs').symm
  obtain ⟨ob', t, hb', hv, his⟩ := hr1.tree hst
  obtain rfl : ob' = ob := by rw [hb] at hb'; exact (Option.some.inj hb').symm
  have hlen := his.length hB hv
  have hlt := touched_lt hl' hj
  have hkd : ob'.kd = s.kd.kd := rel_kd (s := ⟨s.kd, l'⟩) hr1 hst hb'
  have hsh : ob'.v.shift = c.BL + c.B * (levels c ob'.v.shift - 1) := by
    obtain ⟨pre, tl, -, hp⟩ := parts hB his hv
    rcases hp.root with ⟨-, -, h3⟩ | ⟨q, -, h3, h4, -⟩
    · have := levels_shift (c := c) hB 0
      rw [h3]; simp at this; rw [this]; simp
    · rw [h4, h3]; simp
  have key : ∀ {kd : Kind}, AtMost c (vectorKit T c) E er et w1 x' kd (0 + amt 0 0 1 0 kd) := by
    intro kd
    refine within_ok hA hr1 ha' (Spec.Terms.free_on _) fun n hn => ?_
    refine place_within (K := vectorKit T c) (o := o') (q := s.kd) hb hkd hx' hn ?_
    refine spent_ready (st := { w1.st with fault := some (kd, n) }) (j := k) (hrd.same hB hsh hjk) (by rw [hlen]; exact hk) rfl ?_
    rintro ⟨a, rfl⟩
    cases hk
    exact tail_room (by rw [hlen]; exact hlt) (by rw [hlen]; exact hjk)
  exact ⟨key, key, key⟩

/-- **C53.**  A `push_back` in place that follows another one copies no element, and allocates only when the leaf is full. -/
theorem C53_push (hB : 0 < c.B) (hE : E.Fresh) (hne : er ≠ et) (h : VReached c E er et w M) {s : Spec.SObj T} (hs : M[i]? = some s) {D : Nat} (hD : 0 < D) (hl : s.val.length < 2 ^ (c.BL + c.B * D))
    {a b : T} {x x' : Cmd T (VecOp T)} (hx : OnPlace E.gc s.kd i (.push a) x) (hx' : OnPlace E.gc s.kd i (.push b) x') (ha : Spec.Allowed (Spec.vecOps T) M x)
    {f : Option (Kind × Nat)} (hc : vcall c E er et f x w = .ok w1 ()) :
    AtMost c (vectorKit T c) E er et w1 x' .alloc (if (s.val.length + 1) % 2 ^ c.BL = 0 then D + 2 else 0) ∧ AtMost c (vectorKit T c) E er et w1 x' .copy 0 := by
  have hA := vector_laws (T := T) hB hE
  have h1 : VReached c E er et w1 (Spec.step (Spec.vecOps T) E.gc M x) := .call h ha (Spec.Terms.free_on _) hc
  have hr1 := h1.rel hA hne
  obtain ⟨l', hl', hst⟩ := place_step hs hx ha
  obtain rfl : s.val ++ [a] = l' := Option.some.inj hl'
  have ha' : Spec.Allowed (Spec.vecOps T) (Spec.step (Spec.vecOps T) E.gc M x) x' := by
    rcases hx' with ⟨hk, rfl⟩ | ⟨-, -, rfl⟩
    · refine ⟨fun _ _ h => (by cases h), fun s' hs' => ?_⟩
      rw [hst] at hs'; cases hs'
      show s.kd ≠ .shell
      rw [hk]; decide
    · exact fun _ _ h => by cases h
  have hp := Nat.two_pow_pos c.BL
  by_cases hm : (s.val.length + 1) % 2 ^ c.BL = 0
  · rw [if_pos hm]
    obtain ⟨ob, t, hb, hv, his⟩ := hr1.tree hst
    have hlen := his.length hB hv
    have hlv := vec_levels hB hv hD (by simp; omega)
    rw [← his.shift] at hlv
    have hfull : ¬ ob.v.size - ob.v.off c < 2 ^ c.BL := by
      simp only [List.length_append, List.length_cons, List.length_nil] at hlen
      obtain ⟨⟨d, hd⟩, h2, h3⟩ := Vec.tailOffset_spec (c := c) (n := ob.v.size) (by omega)
      obtain ⟨q, hq⟩ := Nat.dvd_of_mod_eq_zero hm
      unfold Vc.off
      rw [hd] at h2 h3 ⊢
      have hs : ob.v.size = 2 ^ c.BL * q := by omega
      have : d < q := by
        by_contra hc
        have := Nat.mul_le_mul_left (2 ^ c.BL) (show q ≤ d by omega)
        omega
      have := Nat.mul_le_mul_left (2 ^ c.BL) (show d + 1 ≤ q by omega)
      rw [Nat.mul_succ] at this
      omega
    have key : ∀ {kd : Kind}, AtMost c (vectorKit T c) E er et w1 x' kd (amt (D + 2) 0 0 0 kd + amt 0 0 1 0 kd) := by
      intro kd
      refine within_ok hA hr1 ha' (Spec.Terms.free_on _) fun n hn => ?_
      have hle : amt (levels c ob.v.shift + 2) 0 0 0 kd ≤ amt (D + 2) 0 0 0 kd := by cases kd <;> simp only [amt] <;> omega
      refine within_mono (place_within (K := vectorKit T c) (q := s.kd) (o := (.push b : VecOp T)) (k := amt (levels c ob.v.shift + 2) 0 0 0 kd) hb (rel_kd (s := ⟨s.kd, s.val ++ [a]⟩) hr1 hst hb) hx' (by omega) ?_) (by omega)
      exact spent_bind (spent_push_full (s := { w1.st with fault := some (kd, n) }) b hfull rfl (by omega)) fun s' b n' hs' hn' => spent_mono ((uses_ret _ : Uses kd 0 _) s' n' hs' (Nat.zero_le _)) fun _ => by omega
    exact ⟨key, key⟩
  · rw [if_neg hm]
    have := C53_same_leaf hB hE hne h hs hx ha (j := s.val.length) rfl hc hst hx' ha' (k := s.val.length + 1) (by simp [touched]) (by rw [Nat.succ_div, if_neg (fun hd => hm (Nat.mod_eq_zero_of_dvd hd))]; rfl)
    exact ⟨this.1, this.2.1⟩

/-! ### A vector from a range -/

theorem spent_bind_out {β δ : Type} {m m' : Nat} {x : HM T β} {g : β → HM T δ} {st s0 : St Dat T} {P : St Dat T → β → Prop} {Q : St Dat T → Prop} (h : Spent kd m (fun _ => k) (x st) (x s0)) (ho : Out (x st) P Q)
    (hf : ∀ s' b n, s'.fault = some (kd, n) → m ≤ n + k → P s' b → Spent kd n (fun _ => m') (g b s') (g b s'.calm)) : Spent kd m (fun _ => k + m') (x.bind g st) (x.bind g s0) := by
  simp only [Mm.M.bind]
  cases hx : x st with
  | ok s' b =>
    rw [hx] at h ho
    obtain ⟨n, h1, h2, h3⟩ := h
    rw [h3]
    have h4 := hf s' b n h1 h2 ho
    show Spent kd m _ (g b s') (g b s'.calm)
    cases hg : g b s' with
    | ok s'' b' =>
      rw [hg] at h4
      obtain ⟨n', h5, h6, h7⟩ := h4
      have h2 : m ≤ n + k := h2
      have h6 : n ≤ n' + m' := h6
      exact ⟨n', h5, (by show m ≤ n' + (k + m'); omega), h7⟩
    | thrown _ => rw [hg] at h4; exact h4.elim
    | ub => rw [hg] at h4; exact h4
  | thrown _ => rw [hx] at h; exact h.elim
  | ub => rw [hx] at ho; exact ho.elim

theorem within_bind_out {β δ : Type} {x : WM T β} {g : β → WM T δ} {m : Nat} {w0 : World T} {P : World T → β → Prop} {Q : World T → Prop} (hx : Within kd k n (x w) (x w0)) (ho : AOut (x w) P Q)
    (hf : ∀ w' b n', w'.st.fault = some (kd, n') → n ≤ n' + k → P w' b → Within kd m n' (g b w') (g b w'.calm)) : Within kd (k + m) n (x.bind g w) (x.bind g w0) := by
  simp only [WM.bind]
  cases h : x w with
  | ok w' b =>
    rw [h] at hx ho
    obtain ⟨n', h1, h2, h3⟩ := hx
    rw [h3]
    have h4 := hf w' b n' h1 h2 ho
    show Within kd (k + m) n (g b w') (g b w'.calm)
    cases hr : g b w' with
    | ok w'' b' =>
      rw [hr] at h4
      obtain ⟨n'', h5, h6, h7⟩ := h4
      exact ⟨n'', h5, by omega, h7⟩
    | thrown _ => rw [hr] at h4; exact h4.elim
    | ub => rw [hr] at h4; exact h4
  | thrown _ => rw [h] at hx; exact hx.elim
  | ub => rw [h] at ho; exact ho.elim

/-- how many of `n` elements come after a full leaf, if there are `ℓ` elements already -/
def fills (c : Cfg) : Nat → Nat → Nat
  | _, 0 => 0
  | ℓ, n + 1 => (if ℓ % 2 ^ c.BL = 0 then 1 else 0) + fills c (ℓ + 1) n

theorem fills_eq (c : Cfg) : ∀ n ℓ, fills c (ℓ + 1) n + ℓ / 2 ^ c.BL = (ℓ + n) / 2 ^ c.BL
  | 0, ℓ => by simp [fills]
  | n + 1, ℓ => by
    have h := fills_eq c n (ℓ + 1)
    have h2 : (ℓ + 1) / 2 ^ c.BL = ℓ / 2 ^ c.BL + if 2 ^ c.BL ∣ ℓ + 1 then 1 else 0 := Nat.succ_div
    rw [show ℓ + 1 + n = ℓ + (n + 1) by omega, h2] at h
    simp only [fills, ← Nat.dvd_iff_mod_eq_zero]
    by_cases hd : 2 ^ c.BL ∣ ℓ + 1
    · rw [if_pos hd] at h ⊢; omega
    · rw [if_neg hd] at h ⊢; omega

/-- the tail is full exactly when the size is a multiple of the size of leaves -/
theorem full_iff {v : Vc} (h0 : 0 < v.size) : (v.size - v.off c < 2 ^ c.BL) ↔ ¬ v.size % 2 ^ c.BL = 0 := by
  obtain ⟨⟨d, hd⟩, h1, h2⟩ := Vec.tailOffset_spec (c := c) (n := v.size) h0
  have hp := Nat.two_pow_pos c.BL
  unfold Vc.off
  constructor
  · intro h hm
    obtain ⟨q, hq⟩ := Nat.dvd_of_mod_eq_zero hm
    rw [hd] at h h1
    have : d < q := by
      by_contra hc
      have := Nat.mul_le_mul_left (2 ^ c.BL) (show q ≤ d by omega)
      omega
    have := Nat.mul_le_mul_left (2 ^ c.BL) (show d + 1 ≤ q by omega)
    rw [Nat.mul_succ] at this
    omega
  · intro hm
    by_contra hc
    refine hm ?_
    have he : v.size = 2 ^ c.BL * (d + 1) := by rw [Nat.mul_succ]; omega
    rw [he]; exact Nat.mul_mod_right _ _

theorem spent_pushes (hB : 0 < c.B) (hE : E.Fresh) {u : Toks E.gc} {L : List (Ref (Val T))} (he : E.gc = true → u.live e) {D : Nat} (hD : 0 < D) : ∀ (xs : List T) (v : Vc) (t : Tree T) (l : List T) (st : St Dat T) (n : Nat),
    Vec.Inv c t l → Is v t → l ≠ [] → Mine E st.mem e v → Inv (sys c E u) st.mem [] (refs v t e ++ L) → l.length + xs.length ≤ 2 ^ (c.BL + c.B * D) →
    st.fault = some (kd, n) → amt (fills c l.length xs.length * (D + 2)) 0 0 0 kd ≤ n →
    Spent kd n (fun _ => amt (fills c l.length xs.length * (D + 2)) 0 0 0 kd) (pushes (vectorKit T c) E e v xs st) (pushes (vectorKit T c) E e v xs st.calm)
  | [], v, t, l, st, n, ht, hv, hne, hm, hi, hl, hf, hn => spent_mono ((uses_ret _ : Uses kd 0 _) st n hf (Nat.zero_le _)) fun _ => by omega
  | x :: xs, v, t, l, st, n, ht, hv, hne, hm, hi, hl, hf, hn => by
    unfold pushes
    simp only [List.length_cons] at hl hn ⊢
    have hlen := hv.length hB ht
    have hpos : 0 < v.size := by rw [hlen]; exact List.length_pos_iff.mpr hne
    obtain ⟨t', ht', hv'⟩ := Vec.pushBack_spec hB ht x
    have hlv := vec_levels hB ht hD (by omega)
    rw [← hv.shift] at hlv
    have hsum : amt (fills c l.length (xs.length + 1) * (D + 2)) 0 0 0 kd = amt (if l.length % 2 ^ c.BL = 0 then D + 2 else 0) 0 0 0 kd + amt (fills c (l.length + 1) xs.length * (D + 2)) 0 0 0 kd := by
      cases kd <;> simp only [amt, fills]
      rw [Nat.add_mul]; split <;> simp
    rw [hsum] at hn ⊢
    have hs : Spent kd n (fun _ => amt (if l.length % 2 ^ c.BL = 0 then D + 2 else 0) 0 0 0 kd) ((vectorKit T c).pushMut E e v x st) ((vectorKit T c).pushMut E e v x st.calm) := by
      by_cases hr : v.size - v.off c < 2 ^ c.BL
      · exact spent_mono (spent_push hm hr x hf) fun _ => by omega
      · have h0 : l.length % 2 ^ c.BL = 0 := by
          rw [full_iff hpos, hlen] at hr
          exact not_not.mp hr
        rw [if_pos h0] at hn ⊢
        have hle : amt (levels c v.shift + 2) 0 0 0 kd ≤ amt (D + 2) 0 0 0 kd := by cases kd <;> simp only [amt] <;> omega
        exact spent_mono (spent_push_full x hr hf (by omega)) fun _ => by omega
    refine spent_bind_out (spent_guard hs) (Q := fun _ => True) (P := fun s' v' => Made c E u [] L st.mem t' e s' v' ∧ Mine E s'.mem e v') ?_ ?_
    · have h1 := pushBackMut_mine hB hE he hv ht ht' hi
      show Out ((v.pushBackMut c E e x).guard _ st) _ _
      simp only [Mm.M.guard]
      revert h1
      cases hp : v.pushBackMut c E e x st with
      | ok s1 v1 => exact fun h => h
      | thrown s1 =>
        exfalso
        rw [show (vectorKit T c).pushMut E e v x st = .thrown s1 from hp] at hs
        exact hs
      | ub => exact fun h => h.elim
    · rintro s' v' n' hf' hn' ⟨⟨h1, h2, h3⟩, h4⟩
      have := spent_pushes hB hE he hD xs v' t' (l ++ [x]) s' n' hv' h1 (by simp) h4 h2 (by simp; omega) hf' (by simp; omega)
      simpa using this

/-- **C53.**  To make a vector of `n` elements from a range, no element is copied from one node to another, and the leaves, inner nodes
and the owner that are allocated are at most `2 + (n - 1) / 2^BL · (D + 2)`: no version of the vector in between is kept. -/
theorem C53_range (hB : 0 < c.B) (hE : E.Fresh) (hne : er ≠ et) (h : VReached c E er et w M) {xs : List T} {D : Nat} (hD : 0 < D) (hl : xs.length ≤ 2 ^ (c.BL + c.B * D)) :
    AtMost c (vectorKit T c) E er et w (.ofRange xs) .alloc (2 + (xs.length - 1) / 2 ^ c.BL * (D + 2)) ∧ AtMost c (vectorKit T c) E er et w (.ofRange xs) .copy 0 := by
  have hA := vector_laws (T := T) hB hE
  have hr := h.rel hA hne
  have key : ∀ {kd : Kind}, AtMost c (vectorKit T c) E er et w (.ofRange xs) kd (amt 1 0 0 0 kd + (0 + (amt (1 + (xs.length - 1) / 2 ^ c.BL * (D + 2)) 0 0 0 kd + 0))) := by
    intro kd
    refine within_ok hA hr (x := .ofRange xs) trivial (Spec.Terms.free_on _) fun n hn => ?_
    obtain ⟨G, h⟩ := hr
    have h : RelG c E (Vec.Inv c) er et { w with st := { w.st with fault := some (kd, n) } } G M := ⟨h.objs, h.loc, h.sound⟩
    rw [call, call, step]
    refine within_bind_out (within_mono (wuses_ownerFor E .transient _ n rfl ?_) ?_) (ownerFor_out .transient) ?_
    · refine Nat.le_trans ?_ hn
      cases kd <;> simp only [amt] <;> first | omega | (split <;> omega)
    · cases kd <;> simp only [amt] <;> first | omega | (split <;> omega)
    rintro w1 t n1 hf1 hn1 ⟨h1, h2, h3, h4, h5⟩
    obtain ⟨h4a, h4b⟩ := h4 rfl
    have hpos := h.sound.pos
    have hi : Inv (sys c E (toks E.gc w.next (acts G))) w1.st.mem [] (sRefs T er et ++ G.flatMap Gh.refs) := by rw [h1]; exact h.sound.inv
    refine within_bind_out (within_lift (uses_empty c E er et _ n1 hf1 (Nat.zero_le _))) (aout_lift (empty_out hi statics_mem t)) ?_
    rintro w2 v n2 hf2 hn2 ⟨⟨rfl, h6, h7, h7'⟩, h8, h9⟩
    refine within_bind (within_lift ?_) fun w3 y n3 hf3 hn3 => wuses_push _ w3 n3 hf3 (Nat.zero_le _)
    have he : E.gc = true → (toks E.gc w.next (acts G)).live t := fun hg => ⟨hg, by have : w.next ≤ t := h4a; omega, .inr h4a⟩
    cases xs with
    | nil => exact spent_mono ((uses_ret _ : Uses kd 0 _) _ n2 hf2 (Nat.zero_le _)) fun _ => by omega
    | cons x xs =>
      have hfl : fills c 1 xs.length = xs.length / 2 ^ c.BL := by simpa using fills_eq c xs.length 0
      have hdl : xs.length / 2 ^ c.BL ≤ ((x :: xs).length - 1) / 2 ^ c.BL := Nat.div_le_div_right (by simp)
      have hsum : amt 1 0 0 0 kd + amt (fills c 1 xs.length * (D + 2)) 0 0 0 kd ≤ amt (1 + ((x :: xs).length - 1) / 2 ^ c.BL * (D + 2)) 0 0 0 kd := by
        rw [hfl]
        have := Nat.mul_le_mul_right (D + 2) hdl
        cases kd <;> simp only [amt] <;> omega
      obtain ⟨t', ht', hv'⟩ := Vec.pushBack_spec hB hA.empty x
      have hs : Spent kd n2 (fun _ => amt 1 0 0 0 kd) ((vectorKit T c).pushMut E t ⟨0, c.BL, er, et⟩ x w2.st) ((vectorKit T c).pushMut E t ⟨0, c.BL, er, et⟩ x w2.st.calm) := by
        show Spent _ _ _ (Vc.pushBackMut c E t ⟨0, c.BL, er, et⟩ x w2.st) (Vc.pushBackMut c E t ⟨0, c.BL, er, et⟩ x w2.st.calm)
        unfold Vc.pushBackMut
        rw [if_pos (show (0 : Nat) - _ < 2 ^ c.BL by rw [Nat.zero_sub]; exact Nat.two_pow_pos _)]
        refine (uses_bind (uses_mono (uses_mutableTail c E t ⟨0, c.BL, er, et⟩ _) ?_) (Nat.le_refl _) fun _ => uses_bind (uses_construct _ _ _) (Nat.zero_le _) fun _ => uses_ret _ : Uses kd (amt 1 0 0 0 kd) _) w2.st n2 hf2 (by omega)
        simp only [Nat.zero_sub]; exact Nat.le_refl _
      unfold pushes
      refine spent_mono (spent_bind_out (m' := amt (fills c 1 xs.length * (D + 2)) 0 0 0 kd) (spent_guard hs) (Q := fun _ => True) (P := fun s' v' => Made c E (toks E.gc w.next (acts G)) [] (sRefs T er et ++ G.flatMap Gh.refs) w2.st.mem t' t s' v' ∧ Mine E s'.mem t v') ?_ ?_) fun _ => by omega
      · have h1 := pushBackMut_mine hB hE he h6 hA.empty ht' h7
        show Out ((Vc.pushBackMut c E t ⟨0, c.BL, er, et⟩ x).guard _ w2.st) _ _
        simp only [Mm.M.guard]
        revert h1
        cases hp : Vc.pushBackMut c E t ⟨0, c.BL, er, et⟩ x w2.st with
        | ok s1 v1 => exact fun h => h
        | thrown s1 =>
          exfalso
          rw [show (vectorKit T c).pushMut E t ⟨0, c.BL, er, et⟩ x w2.st = .thrown s1 from hp] at hs
          exact hs
        | ub => exact fun h => h.elim
      · rintro s' v' n' hf' hn' ⟨⟨k1, k2, k3⟩, k4⟩
        exact spent_pushes hB hE he hD xs v' t' [x] s' n' hv' k1 (by simp) k4 k2 (by simp at hl ⊢; omega) hf' (by show amt (fills c 1 xs.length * (D + 2)) 0 0 0 kd ≤ n'; omega)
  exact ⟨by simpa [amt, ← Nat.add_assoc] using key (kd := .alloc), by simpa [amt] using key (kd := .copy)⟩

end
/-- a transient of six elements, in leaves of two, one of which it has changed -/
def placeProg : List (Option (Kind × Nat) × Cmd Nat (VecOp Nat)) := [(none, .ofRange [1, 2, 3, 4, 5, 6]), (none, .transient 0)]

theorem placeReached (gc : Bool) : ∃ w, VReached c2 (exEnv Nat gc) 1 2 w [⟨.value, [1, 2, 3, 4, 5, 6]⟩, ⟨.transient, [1, 2, 3, 4, 5, 6]⟩] ∧
    run c2 (vectorKit Nat c2) (exEnv Nat gc) 1 2 placeProg (start c2 (exEnv Nat gc) 1 2) = some (w, [false, false]) := by
  have hal : Spec.AllAllowed (Spec.vecOps Nat) (exEnv Nat gc).gc [] placeProg := ⟨trivial, ⟨trivial, trivial, fun h => absurd rfl h⟩, fun h => absurd rfl h⟩
  obtain ⟨w, fl, M, h1, h0, hf, hr, h2, h3⟩ := C25_programs (c := c2) (er := 1) (et := 2) (by decide) (exEnv_fresh Nat gc) (by decide) placeProg hal
  match fl, h0 with
  | [a, b], _ =>
    have ha : a = false := by
      cases a with
      | false => rfl
      | true => exact absurd rfl (hf ((none, .ofRange [1, 2, 3, 4, 5, 6]), true) (by simp [placeProg]) rfl)
    have hb : b = false := by
      cases b with
      | false => rfl
      | true => exact absurd rfl (hf ((none, .transient 0), true) (by simp [placeProg]) rfl)
    subst ha hb
    obtain rfl : M = _ := hr
    exact ⟨w, h2, h1⟩

/-- the hypotheses of `C53_same_leaf`: after `t.set(0, 10)`, `t.set(1, 20)` allocates nothing -/
example (gc : Bool) : ∃ w w1, run c2 (vectorKit Nat c2) (exEnv Nat gc) 1 2 placeProg (start c2 (exEnv Nat gc) 1 2) = some (w, [false, false]) ∧ vcall c2 (exEnv Nat gc) 1 2 none (.applyMut 1 (.set 0 10)) w = .ok w1 () ∧
    AtMost c2 (vectorKit Nat c2) (exEnv Nat gc) 1 2 w1 (.applyMut 1 (.set 1 20)) .alloc 0 := by
  obtain ⟨w, h, hrun⟩ := placeReached gc
  have ha : Spec.Allowed (Spec.vecOps Nat) [⟨.value, [1, 2, 3, 4, 5, 6]⟩, ⟨.transient, [1, 2, 3, 4, 5, 6]⟩] (.applyMut 1 (.set 0 10)) := ⟨fun s hs => (by cases hs; simp [Spec.vecOps]), fun s hs => (by cases hs; simp)⟩
  have ho := call_out (vector_laws (by decide) (exEnv_fresh Nat gc)) (h.rel (vector_laws (by decide) (exEnv_fresh Nat gc)) (by decide)) none _ ha (Spec.Terms.free_on _)
  change AOut (vcall c2 (exEnv Nat gc) 1 2 none (.applyMut 1 (.set 0 10)) w) _ _ at ho
  cases hx : vcall c2 (exEnv Nat gc) 1 2 none (.applyMut 1 (.set 0 10)) w with
  | ub => rw [hx] at ho; exact ho.elim
  | thrown w' => rw [hx] at ho; exact absurd rfl ho.2
  | ok w1 _ =>
    refine ⟨w, w1, hrun, hx, (C53_same_leaf (s := ⟨.transient, [1, 2, 3, 4, 5, 6]⟩) (s' := ⟨.transient, [10, 2, 3, 4, 5, 6]⟩) (o := .set 0 10) (o' := .set 1 20) (j := 0) (k := 1) (by decide) (exEnv_fresh _ _) (by decide) h rfl (.inl ⟨rfl, rfl⟩) ha rfl hx
      ?_ (.inl ⟨rfl, rfl⟩) ⟨fun s hs => ?_, fun s hs => ?_⟩ rfl (by decide)).1⟩
    · cases gc <;> rfl
    · cases gc <;> cases hs <;> simp [Spec.vecOps]
    · cases gc <;> cases hs <;> simp

/-- how many of nine allocations are left after the last call -/
noncomputable def left9 (gc : Bool) (xs : List (Cmd Nat (VecOp Nat))) (x : Cmd Nat (VecOp Nat)) : Option Nat :=
  (run c2 (vectorKit Nat c2) (exEnv Nat gc) 1 2 (placeProg ++ xs.map (fun y => (none, y)) ++ [(some (.alloc, 9), x)]) (start c2 (exEnv Nat gc) 1 2)).bind fun r => r.1.st.fault.map Prod.snd

/-- the first of the two allocates two nodes, because the root and the leaf are shared with the vector; the second none; `t.set(2, 30)` one, because
the other leaf is shared still; and after `persistent()` the second allocates as well -/
example : ∀ gc, left9 gc [] (.applyMut 1 (.set 0 10)) = some 7 ∧ left9 gc [.applyMut 1 (.set 0 10)] (.applyMut 1 (.set 1 20)) = some 9 ∧
    left9 gc [.applyMut 1 (.set 0 10)] (.applyMut 1 (.set 2 30)) = some 8 ∧ left9 gc [.applyMut 1 (.set 0 10), .persistent 1] (.applyMut 1 (.set 1 20)) = some 7 := by decide +kernel

/-- the hypotheses of `C53_range` -/
example (gc : Bool) : AtMost c2 (vectorKit Nat c2) (exEnv Nat gc) 1 2 (start c2 (exEnv Nat gc) 1 2) (.ofRange [1, 2, 3, 4, 5]) .alloc 10 :=
  (C53_range (c := c2) (D := 2) (by decide) (exEnv_fresh _ _) (by decide) .start (by decide) (by decide)).1

end VecHeap
