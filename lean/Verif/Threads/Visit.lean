import Verif.Threads.Nodes

/-!
# The visitors, in a thread
-/

namespace Thr
open Mm Rrb VecHeap
open Thr.Prog (ret undef)

variable {T δ : Type} {c : Cfg} {G : Refs T} {O : List Nat} {L : Refs T} {m m' : Mem Dat T} {Q : List Nat → Refs T → Mem Dat T → δ → Prop} {p q i n : Nat}
  {xs : List T} {N R : Node T} {Ns : List (Node T)} {ks : List Nat} {t : Nat} {rt : Ref (Val T)} {Os : List Nat} {Lo : Refs T}

/-- `q` will be a reference to `R` as soon as there is the reference `rt`; until then the nodes `Os` on the path from `q` to the
node of `rt` are open, and have the references `Lo` to their other children. -/
def Pend (c : Cfg) (G : Refs T) (m : Mem Dat T) (Os : List Nat) (Lo : Refs T) (q : Nat) (R : Node T) (rt : Ref (Val T)) : Prop :=
  ∀ m', (∀ a ∈ Os, m' a = m a) → ∀ (δ : Type) (Q : List Nat → Refs T → Mem Dat T → δ → Prop) (p : TM T δ) (O : List Nat) (L : Refs T),
    TSafe c G p O (rf q R :: L) m' Q → TSafe c G p (Os ++ O) (rt :: (Lo ++ L)) m' Q

theorem Pend.here (hr : rt.val = .node R) : Pend c G m [] [] rt.ptr R rt := fun _ _ _ _ _ _ _ h => safe_retok hr h

theorem Pend.kept (h : Pend c G m Os Lo q R rt) (hk : ∀ a ∈ Os, m' a = m a) : Pend c G m' Os Lo q R rt :=
  fun m2 hk2 => h m2 fun a ha => (hk2 a ha).trans (hk a ha)

/-- the node above -/
theorem Pend.up {A B : Refs T} (h : Pend c G m Os Lo q R rt) (hc : m n = some (icell c t (A.map Ref.ptr ++ q :: B.map Ref.ptr))) (hv : A.map Ref.val ++ .node R :: B.map Ref.val = Ns.map Val.node)
    (hl : A.length + B.length + 1 ≤ 2 ^ c.B) : Pend c G m (n :: Os) ((A ++ B) ++ Lo) n (.inner none Ns) rt := by
  intro m' hm δ Q p O L hs
  refine safe_perm (O1 := Os ++ (n :: O)) (L1 := rt :: (Lo ++ (A ++ B ++ L))) List.perm_middle.symm (.cons _ ?_) ?_
  · rw [List.append_assoc (A ++ B)]
    exact List.perm_append_comm_assoc _ _ _
  · refine h m' (fun a ha => hm a (List.mem_cons_of_mem _ ha)) δ Q p _ _ ?_
    refine safe_perm (L1 := (A ++ rf q R :: B) ++ L) (.refl _) (perm_child A B (rf q R) L).symm ?_
    refine close_inner (t := t) ?_ ?_ ?_ hs
    · rw [hm n List.mem_cons_self, hc]; simp
    · simpa using hv
    · rw [List.length_append, List.length_cons]; omega

/-- `make_path` does not touch the leaf -/
theorem makePath_safe (hrt : rt.val = .node N) : ∀ (k : Nat) {f : Nat → TM T δ} {O : List Nat} {L : Refs T} {m : Mem Dat T},
    (∀ m' q Os Lo, TKept c G O L m m' → Pend c G m' Os Lo q (mkPath k N) rt → TSafe c G (f q) (Os ++ O) (Lo ++ L) m' Q) → TSafe c G ((makePath c k rt.ptr).bind f) O L m Q
  | 0, f, O, L, m, h => h m rt.ptr [] [] .refl (Pend.here hrt)
  | k + 1, f, O, L, m, h => by
    unfold makePath
    simp only [bind_assoc, ret_bind]
    refine newInner_safe fun m1 n h0 hk1 hc1 => makePath_safe hrt k fun m2 q Os Lo hk2 hp => ?_
    refine safe_perm (O1 := n :: (Os ++ O)) (L1 := Lo ++ L) List.perm_middle (.refl _) ?_
    refine pushKid_safe ((hk2.2 n List.mem_cons_self).trans hc1) rfl Nat.one_le_two_pow fun m3 hk3 hc3 => ?_
    refine h m3 n (n :: Os) Lo ?_ ?_
    · refine (hk1.trans (Kept.close' hk2)).trans (hk3.mono (fun x hx => ?_) fun x hx => List.mem_append_right _ hx)
      rw [List.append_assoc]; exact List.mem_append_right _ hx
    · exact (hp.kept fun a ha => hk3.2 a (List.mem_append_left _ ha)).up (A := []) (B := []) hc3 rfl Nat.one_le_two_pow

/-- `update_visitor` -/
theorem updateV_safe (hB : 0 < c.B) (fn : T → T) : ∀ (l : Nat) {f : Nat → TM T δ} {O : List Nat} {m : Mem Dat T} {p : Nat} {sh : Shp} {N : Node T} {idx : Nat} {R : Node T}, Fits c l sh N →
    Rrb.updateV c fn l (sh.pos N) idx = some R → TAt c G L m p N → (∀ m' q, TKept c G O L m m' → TSafe c G (f q) O (rf q R :: L) m' Q) → TSafe c G ((updateV c fn l p sh idx).bind f) O L m Q
  | 0, f, O, m, p, sh, N, idx, R, hf, hv, ha, h => by
    obtain ⟨xs, off, x, rfl, h1, h2, h3, h4, h5, rfl⟩ := hf.updLeaf hv
    unfold updateV
    rw [if_pos h1]
    simp only [bind_assoc, ret_bind]
    refine lift_safe h4 (copyLeaf_safe ha h2 h3 fun m1 a h0 hk1 hc1 => ?_)
    refine applyEl_safe hc1 h5 fun m2 hk2 hc2 => ?_
    exact close_leaf hc2 (by simpa using h3) (h m2 a (hk1.trans hk2))
  | l + 1, f, O, m, p, sh, N, idx, R, hf, hv, ha, h => by
    obtain ⟨Ns, off, x, sh', R', rfl, h1, h2, h3, h4, h5, h6, h7, h8, rfl⟩ := hf.upd hB hv
    have hoff : off < Ns.length := (List.getElem?_eq_some_iff.mp h5).1
    unfold updateV
    simp only [bind_assoc, ret_bind]
    refine lift_safe h4 (newInner_safe fun m1 n h0 hk1 hc1 => lift_safe h6 ?_)
    have ha1 : TAt c G L m1 p (.inner none Ns) := ha.kept hk1
    obtain ⟨cp, cap, Lc, hc, hd, hval, hx⟩ := at_inner ha1
    obtain ⟨y, hy, hyv⟩ := nth_ref hval h5
    have hya := (hx y (List.mem_of_getElem? hy)).2.2
    rw [hyv] at hya
    refine kid_safe (.inr ha1.reach) hc hd (by rw [List.getElem?_map, hy]; rfl) ?_
    refine updateV_safe hB fn l h7 h8 hya fun m2 q hk2 => ?_
    refine doCopyInnerReplace_safe (r := rf q R') ((hk2.2 n List.mem_cons_self).trans hc1) (ha1.kept hk2) rfl h1 (by omega) (by omega) fun m3 Lc' hk3 hv3 hc3 => ?_
    refine close_inner hc3 hv3 ?_ (h m3 n ((hk1.trans (Kept.close' hk2)).trans hk3))
    have := congrArg List.length hv3
    simp at this
    omega

/-- `push_tail_visitor` does not touch the leaf -/
theorem pushTailNew_safe (hB : 0 < c.B) {Nt : Node T} {ts : Nat} (hrt : rt.val = .node Nt) :
    ∀ (l : Nat) {f : Nat → TM T δ} {O : List Nat} {m : Mem Dat T} {p : Nat} {sh : Shp} {N : Node T} {size : Nat} {R : Node T}, Fits c (l + 1) sh N → RegPos c l (sh.pos N) N size → (els (l + 1) N).length < cap c (l + 1) →
    pushTail c Nt ts (l + 1) (sh.pos N) = some (some R) → TAt c G L m p N →
    (∀ m' q Os Lo, TKept c G O L m m' → Pend c G m' Os Lo q R rt → TSafe c G (f q) (Os ++ O) (Lo ++ L) m' Q) → TSafe c G ((pushTailNew c rt.ptr (l + 1) p sh).bind f) O L m Q
  | l, f, O, m, p, sh, N, size, R, hf, hp, hlt, hv, ha, h => by
    obtain ⟨ds, e, ni, rfl, hlen, h1, h2, h3, hor⟩ := hf.push hB hp hlt hv
    unfold pushTailNew
    simp only [bind_assoc, ret_bind]
    refine lift_safe h1 (lift_safe h2 (lift_safe h3 (newInner_safe fun m1 n h0 hk1 hc1 => ?_)))
    have ha1 : TAt c G L m1 p (.inner none (ds ++ [e])) := ha.kept hk1
    have key : ∀ (X : Node T), ni ≤ ds.length + 1 → ni + 1 ≤ 2 ^ c.B → R = .inner none ((ds ++ [e]).take ni ++ [X]) →
        ∀ m2 q Os Lo, TKept c G (n :: O) L m1 m2 → Pend c G m2 Os Lo q X rt →
        TSafe c G ((doCopyInner n p ni).bind fun _ => (putKid n ni q).bind fun _ => f n) (Os ++ n :: O) (Lo ++ L) m2 Q := by
      rintro X hk hk2 rfl m2 q Os Lo hkp hpd
      refine safe_perm (O1 := n :: (Os ++ O)) (L1 := Lo ++ L) List.perm_middle (.refl _) ?_
      have ha2 : TAt c G L m2 p (.inner none (ds ++ [e])) := ha1.kept hkp
      have hsub : ∀ x ∈ L ++ G, x ∈ (Lo ++ L) ++ G := fun x hx => by rw [List.append_assoc]; exact List.mem_append_right _ hx
      refine doCopyInner_safe ((hkp.2 n List.mem_cons_self).trans hc1) (ha2.mono hsub) (by simpa using hk) (by omega) fun m3 Lc hk3 hv3 ht3 hc3 _ => ?_
      have hlc : Lc.length = ni := by
        have := congrArg List.length hv3
        simp at this
        omega
      refine pushKid_safe hc3 (by simpa using hlc.symm) (by simp; omega) fun m4 hk4 hc4 => ?_
      have hkk : TKept c G (Os ++ O) (Lo ++ L) m2 m4 := hk3.trans (hk4.mono (fun x hx => by rw [List.append_assoc]; exact List.mem_append_right _ hx) fun _ h => h)
      have := h m4 n (n :: Os) (Lc ++ Lo) ((hk1.trans (Kept.close' hkp)).trans (hkk.mono hsub fun x hx => List.mem_append_right _ hx)) ?_
      · rw [List.append_assoc] at this
        exact this
      · have := (hpd.kept (m' := m4) fun a ha => hkk.2 a (List.mem_append_left _ ha)).up (A := Lc) (B := []) (Ns := (ds ++ [e]).take ni ++ [X]) hc4 (by rw [hv3]; simp) (by simp; omega)
        simpa using this
    rcases hor with ⟨rfl, hl2, rfl⟩ | ⟨l', sl, R', rfl, rfl, h4, h5, h6, h7, h8, rfl⟩
    · rw [if_neg (by omega)]
      refine makePath_safe hrt l fun m2 q Os Lo hkp hpd => ?_
      exact key _ (Nat.le_refl _) hl2 (by rw [List.take_of_length_le (by simp)]) m2 q Os Lo hkp hpd
    · rw [if_pos rfl]
      simp only [bind_assoc]
      obtain ⟨cp, cap, Lc, hc, hd, hval, hx⟩ := at_inner ha1
      obtain ⟨y, hy, hyv⟩ := nth_ref (j := ds.length) (N := e) hval (by simp)
      have hya := (hx y (List.mem_of_getElem? hy)).2.2
      rw [hyv] at hya
      refine lift_safe h4 (kid_safe (.inr ha1.reach) hc hd (by rw [List.getElem?_map, hy]; rfl) ?_)
      refine pushTailNew_safe hB hrt l' h5 h6 h7 h8 hya fun m2 q Os Lo hkp hpd => ?_
      exact key R' (Nat.le_succ _) hlen (by simp) m2 q Os Lo hkp hpd

/-- a node that has only one owner -/
theorem unique_inner {f : Bool → TM T δ} {r : Ref (Val T)} (hr : r.val = .node (.inner none Ns)) (h1 : TSafe c G (f false) O (r :: L) m Q)
    (h2 : ∀ m' Lo t, TKept c G O L m m' → m' r.ptr = some (icell c t (Lo.map Ref.ptr)) → Lo.map Ref.val = Ns.map Val.node → Lo.length ≤ 2 ^ c.B → TSafe c G (f true) (r.ptr :: O) (Lo ++ L) m' Q) :
    TSafe c G ((canMutate r.ptr).bind f) O (r :: L) m Q := by
  refine safe_unique rfl h1 fun m' cl Lo hk hc hrc ho hok => ?_
  rw [hr] at hok
  obtain ⟨h3, h4, h5⟩ := ok_inner hrc ho hok
  rw [h3] at hc
  exact h2 m' Lo _ hk hc h4 h5

theorem unique_leaf {f : Bool → TM T δ} {r : Ref (Val T)} (hr : r.val = .node (.leaf xs)) (h1 : TSafe c G (f false) O (r :: L) m Q)
    (h2 : ∀ m' t, TKept c G O L m m' → m' r.ptr = some (lcell c t xs) → xs.length ≤ 2 ^ c.BL → TSafe c G (f true) (r.ptr :: O) L m' Q) :
    TSafe c G ((canMutate r.ptr).bind f) O (r :: L) m Q := by
  refine safe_unique rfl h1 fun m' cl Lo hk hc hrc ho hok => ?_
  rw [hr] at hok
  obtain ⟨h3, rfl, h5⟩ := ok_leaf hrc hok
  rw [h3] at hc
  exact h2 m' _ hk hc h5

/-- `push_tail_mut_visitor` takes the references to the leaf and to the node -/
theorem pushTailMut_safe (hB : 0 < c.B) {Nt : Node T} {ts : Nat} (hrt : rt.val = .node Nt) :
    ∀ (l : Nat) {f : Nat → TM T δ} {O : List Nat} {L : Refs T} {m : Mem Dat T} {r : Ref (Val T)} {sh : Shp} {N : Node T} {size : Nat} {R : Node T}, Fits c (l + 1) sh N → RegPos c l (sh.pos N) N size →
    (els (l + 1) N).length < Rrb.cap c (l + 1) → pushTail c Nt ts (l + 1) (sh.pos N) = some (some R) → r.val = .node N →
    (∀ m' q, TKept c G O L m m' → TSafe c G (f q) O (rf q R :: L) m' Q) → TSafe c G ((pushTailMut c rt.ptr (l + 1) r.ptr sh).bind f) O (r :: rt :: L) m Q
  | l, f, O, L, m, r, sh, N, size, R, hf, hp, hlt, hv, hr, h => by
    obtain ⟨ds, d, ni, hN, hlen, h1, h2, h3, hor⟩ := hf.push hB hp hlt hv
    subst hN
    unfold pushTailMut
    simp only [bind_assoc, ret_bind]
    refine unique_inner hr ?_ fun m1 Lo t hk1 hc1 hv1 hl1 => ?_
    · simp only [Bool.false_eq_true, if_false, bind_assoc, ret_bind]
      refine safe_at (r := r) List.mem_cons_self hr fun m1 hk1 ha1 => ?_
      refine pushTailNew_safe hB hrt l hf hp hlt hv ha1 fun m2 q Os Lo hk2 hpd => ?_
      refine safe_perm (L1 := rt :: (Lo ++ (r :: L))) (.refl _) (by simpa using (List.perm_append_comm_assoc Lo [r, rt] L).trans ((List.Perm.swap _ _ _).trans (.cons _ (List.perm_middle (l₁ := Lo)).symm))) ?_
      refine hpd m2 (fun _ _ => rfl) _ _ _ _ _ ?_
      refine safe_perm (.refl _) (List.Perm.swap _ _ _) (decV_safe hB (l + 1) hr hf fun m3 hk3 => ?_)
      refine h m3 q (Kept.trans ((hk1.trans hk2).mono (fun x hx => ?_) fun _ h => h) (Kept.head hk3))
      exact List.mem_cons_of_mem _ (List.mem_cons_of_mem _ hx)
    · simp only [if_true, bind_assoc, ret_bind]
      refine lift_safe h1 (lift_safe h2 (lift_safe h3 ?_))
      have hlo : Lo.length = ds.length + 1 := by simpa using congrArg List.length hv1
      have hk1' : TKept c G O L m m1 := Kept.head hk1
      rcases hor with ⟨rfl, hl2, rfl⟩ | ⟨l', sl, R', rfl, rfl, h4, h5, h6, h7, h8, rfl⟩
      · rw [if_neg (by omega)]
        refine makePath_safe hrt l fun m2 q Os Lp hk2 hpd => ?_
        refine safe_perm (L1 := rt :: (Lp ++ (Lo ++ L))) (.refl _) ?_ (hpd m2 (fun _ _ => rfl) _ _ _ _ _ ?_)
        · have : (Lp ++ (Lo ++ rt :: L)).Perm (Lp ++ (rt :: (Lo ++ L))) := List.Perm.append_left _ List.perm_middle
          exact this.trans List.perm_middle
        · refine pushKid_safe ((hk2.2 _ List.mem_cons_self).trans hc1) (by simp [hlo]) (by simp; omega) fun m3 hk3 hc3 => ?_
          refine safe_perm (L1 := (Lo ++ [rf q (mkPath l Nt)]) ++ L) (.refl _) (by simpa using List.perm_middle.symm) ?_
          refine close_inner (t := t) (by rw [hc3]; simp) (by rw [List.map_append, hv1]; simp) (by simp; omega) (h m3 _ ?_)
          refine (hk1'.trans (hk2.mono (fun x hx => ?_) fun x hx => List.mem_cons_of_mem _ hx)).trans (hk3.mono (fun x hx => ?_) fun _ h => h)
          · rcases List.mem_append.mp hx with hx | hx <;> simp [hx]
          · rcases List.mem_append.mp hx with hx | hx <;> simp [hx]
      · rw [if_pos rfl]
        simp only [bind_assoc]
        obtain ⟨x, hx, hxv⟩ := nth_ref (j := ds.length) (N := d) hv1 (by simp)
        refine lift_safe h4 (kid_safe (.inl List.mem_cons_self) hc1 rfl (by rw [List.getElem?_map, hx]; rfl) ?_)
        obtain ⟨A, B, rfl, hA⟩ := split_at hx
        have hBn : B = [] := by
          rw [List.length_append, List.length_cons, hA] at hlo
          exact List.eq_nil_of_length_eq_zero (by omega)
        subst hBn
        refine safe_perm (L1 := x :: rt :: (A ++ L)) (.refl _) ?_ ?_
        · simpa using (List.perm_append_comm_assoc A [x, rt] L)
        refine pushTailMut_safe hB hrt l' h5 h6 h7 h8 hxv fun m2 q hk2 => ?_
        refine putKid_safe (t := t) (A := A.map Ref.ptr) (x := x.ptr) (B := []) (by rw [(hk2.2 _ List.mem_cons_self).trans hc1]; simp) (by simp [hA]) fun m3 hk3 hc3 => ?_
        refine safe_perm (L1 := (A ++ [rf q R']) ++ L) (.refl _) (by simpa using List.perm_middle.symm) ?_
        have hv1' : A.map Ref.val = ds.map Val.node := by
          simp only [List.map_append, List.map_cons, List.map_nil] at hv1
          exact (List.append_inj_left' hv1 (by simp))
        refine close_inner (t := t) (by rw [hc3]; simp) (by rw [List.map_append, hv1']; simp) (by simp; omega) (h m3 _ ?_)
        refine (hk1'.trans (hk2.mono (fun x hx => ?_) fun x hx => List.mem_cons_of_mem _ hx)).trans (hk3.mono (fun x hx => ?_) fun _ h => h)
        · rcases List.mem_append.mp hx with hx | hx <;> simp [hx]
        · rcases List.mem_append.mp hx with hx | hx <;> simp [hx]

/-- where an element may be changed -/
abbrev GotAt (c : Cfg) (G : Refs T) (l : Nat) (ps : Pos T) (idx : Nat) (m : Mem Dat T) (g leaf : Nat) (xs : List T) (j : Nat) (x : T) (Os : List Nat) (Lo : Refs T) : Prop :=
  ∀ fn R, Rrb.updateV c fn l ps idx = some R → Pend c G m Os Lo g R (rf leaf (.leaf (xs.set j (fn x))))

theorem set_mid {A B : Refs T} {y : Ref (Val T)} {off : Nat} {R' : Node T} (hv : (A ++ y :: B).map Ref.val = Ns.map Val.node) (hA : A.length = off) :
    A.map Ref.val ++ .node R' :: B.map Ref.val = (Ns.set off R').map Val.node := by
  rw [List.map_set, ← hv]
  subst hA
  simp [List.set_append_right]

/-- `get_mut_visitor` takes the reference to the node -/
theorem getMut_safe (hB : 0 < c.B) : ∀ (l : Nat) {f : Nat × Nat × Nat → TM T δ} {O : List Nat} {L : Refs T} {m : Mem Dat T} {r : Ref (Val T)} {sh : Shp} {N : Node T} {idx : Nat}, Fits c l sh N →
    (∀ fn, ∃ R, Rrb.updateV c fn l (sh.pos N) idx = some R) → r.val = .node N →
    (∀ m' g leaf j xs x t Os Lo, TKept c G O L m m' → m' leaf = some (lcell c t xs) → xs[j]? = some x → xs.length ≤ 2 ^ c.BL → GotAt c G l (sh.pos N) idx m' g leaf xs j x Os Lo →
      TSafe c G (f (g, leaf, j)) (leaf :: (Os ++ O)) (Lo ++ L) m' Q) →
    TSafe c G ((getMut c l r.ptr sh idx).bind f) O (r :: L) m Q
  | 0, f, O, L, m, r, sh, N, idx, hf, hv, hr, h => by
    obtain ⟨R0, hR0⟩ := hv id
    obtain ⟨xs, off, x, rfl, h1, h2, h3, h4, h5, -⟩ := hf.updLeaf hR0
    have hall : ∀ fn R, Rrb.updateV c fn 0 (sh.pos (.leaf xs)) idx = some R → R = .leaf (xs.set off (fn x)) := by
      intro fn R hR
      obtain ⟨xs', off', x', e1, _, _, _, e4, e5, rfl⟩ := hf.updLeaf hR
      cases e1
      rw [h4] at e4
      cases e4
      rw [h5] at e5
      cases e5
      rfl
    have hgot : ∀ m a, GotAt c G 0 (sh.pos (.leaf xs)) idx m a a xs off x [] [] := by
      intro m a fn R hR
      rw [hall fn R hR]
      exact Pend.here (rt := rf a _) rfl
    unfold getMut
    rw [if_pos h1]
    simp only [bind_assoc, ret_bind]
    refine unique_leaf hr ?_ fun m1 t hk1 hc1 hl1 => ?_
    · simp only [Bool.false_eq_true, if_false, bind_assoc, ret_bind]
      refine safe_at (r := r) List.mem_cons_self hr fun m1 hk1 ha1 => ?_
      refine copyLeaf_safe ha1 h2 h3 fun m2 a h0 hk2 hc2 => ?_
      refine decV_safe hB 0 hr hf fun m3 hk3 => lift_safe h4 ?_
      refine h m3 a a off xs x 0 [] [] ?_ ((hk3.2 a List.mem_cons_self).trans hc2) h5 h3 (hgot m3 a)
      exact (Kept.head (hk1.trans hk2)).trans (Kept.close' hk3)
    · simp only [if_true, bind_assoc, ret_bind]
      exact lift_safe h4 (h m1 r.ptr r.ptr off xs x t [] [] hk1 hc1 h5 h3 (hgot m1 _))
  | l + 1, f, O, L, m, r, sh, N, idx, hf, hv, hr, h => by
    obtain ⟨R0, hR0⟩ := hv id
    obtain ⟨Ns, off, x, sh', R0', rfl, h1, h2, h3, h4, h5, h6, h7, h8, -⟩ := hf.upd hB hR0
    have hoff : off < Ns.length := (List.getElem?_eq_some_iff.mp h5).1
    have hall : ∀ fn R, Rrb.updateV c fn (l + 1) (sh.pos (.inner none Ns)) idx = some R → ∃ R', Rrb.updateV c fn l (sh'.pos x) idx = some R' ∧ R = .inner none (Ns.set off R') := by
      intro fn R hR
      obtain ⟨Ns', off', x', sh'', R', e0, _, _, _, e4, e5, e6, _, e8, rfl⟩ := hf.upd hB hR
      cases e0
      rw [h4] at e4
      cases e4
      rw [h5] at e5
      cases e5
      rw [h6] at e6
      cases e6
      exact ⟨R', e8, rfl⟩
    have hv' : ∀ fn, ∃ R, Rrb.updateV c fn l (sh'.pos x) idx = some R := by
      intro fn
      obtain ⟨R, hR⟩ := hv fn
      obtain ⟨R', hR', _⟩ := hall fn R hR
      exact ⟨R', hR'⟩
    -- the child
    have key : ∀ (L : Refs T) (f : Nat × Nat × Nat → TM T δ) (m1 : Mem Dat T) (n t : Nat) (A B : Refs T) (y : Ref (Val T)), (A ++ y :: B).map Ref.val = Ns.map Val.node → A.length = off → y.val = .node x →
        m1 n = some (icell c t ((A ++ y :: B).map Ref.ptr)) →
        (∀ m' g leaf j xs x t Os Lo, TKept c G O L m1 m' → m' leaf = some (lcell c t xs) → xs[j]? = some x → xs.length ≤ 2 ^ c.BL → GotAt c G (l + 1) (sh.pos (.inner none Ns)) idx m' n leaf xs j x Os Lo →
          TSafe c G (f (g, leaf, j)) (leaf :: (Os ++ O)) (Lo ++ L) m' Q) →
        TSafe c G ((getMut c l y.ptr sh' idx).bind fun r => (putKid n off r.1).bind fun _ => f r) (n :: O) ((A ++ y :: B) ++ L) m1 Q := by
      intro L f m1 n t A B y hval hA hy hc1 h
      have hln : A.length + B.length + 1 ≤ 2 ^ c.B := by
        have := congrArg List.length hval
        simp only [List.length_map, List.length_append, List.length_cons] at this
        omega
      refine safe_perm (L1 := y :: (A ++ B ++ L)) (.refl _) (perm_child A B y L) ?_
      refine getMut_safe hB l h7 hv' hy fun m2 g leaf j xs xe t' Os Lo hk2 hc2 hxe hl2 hgot => ?_
      refine safe_perm (O1 := n :: (leaf :: (Os ++ O))) (L1 := Lo ++ (A ++ B ++ L)) ?_ (.refl _) ?_
      · exact ((List.perm_middle (l₁ := leaf :: Os)) : (leaf :: Os ++ n :: O).Perm _)
      refine putKid_safe (t := t) (A := A.map Ref.ptr) (x := y.ptr) (B := B.map Ref.ptr) (by rw [(hk2.2 _ List.mem_cons_self).trans hc1]; simp) (by simp [hA]) fun m3 hk3 hc3 => ?_
      refine safe_perm (O1 := leaf :: ((n :: Os) ++ O)) (L1 := ((A ++ B) ++ Lo) ++ L) (List.Perm.swap _ _ _) ?_ ?_
      · rw [List.append_assoc (A ++ B)]
        exact List.perm_append_comm_assoc _ _ _
      refine h m3 g leaf j xs xe t' (n :: Os) ((A ++ B) ++ Lo) ?_ ((hk3.2 leaf List.mem_cons_self).trans hc2) hxe hl2 ?_
      · refine Kept.trans (hk2.mono (fun x hx => ?_) fun x hx => List.mem_cons_of_mem _ hx) (hk3.mono (fun x hx => ?_) fun x hx => List.mem_cons_of_mem _ (List.mem_append_right _ hx))
        · rcases List.mem_append.mp hx with hx | hx <;> simp [hx]
        · rcases List.mem_append.mp hx with hx | hx <;> simp [hx]
      · intro fn R hR
        obtain ⟨R', hR', rfl⟩ := hall fn R hR
        exact ((hgot fn R' hR').kept fun a ha => hk3.2 a (List.mem_cons_of_mem _ (List.mem_append_left _ ha))).up hc3 (set_mid hval hA) hln
    unfold getMut
    simp only [bind_assoc, ret_bind]
    refine lift_safe h4 (unique_inner hr ?_ fun m1 Lo t hk1 hc1 hv1 hl1 => ?_)
    · simp only [Bool.false_eq_true, if_false, bind_assoc, ret_bind]
      refine safe_at (r := r) List.mem_cons_self hr fun m1 hk1 ha1 => ?_
      refine newInner_safe fun m2 n h0 hk2 hc2 => ?_
      refine doCopyInner_safe hc2 (ha1.kept hk2) (Nat.le_of_eq h1) (by omega) fun m3 Lc hk3 hv3 ht3 hc3 hks => lift_safe h6 ?_
      obtain ⟨cl, cap, ks, hcl, hd, hpt⟩ := hks
      rw [h1, List.take_length] at hv3
      obtain ⟨y, hy, hyv⟩ := nth_ref hv3 h5
      have hkid : ks[off]? = some y.ptr := by
        have := congrArg (fun z => z[off]?) hpt
        simp only [List.getElem?_map, hy, Option.map_some] at this
        rw [List.getElem?_take_of_lt (by omega)] at this
        exact this.symm
      refine kid_safe (.inr ⟨r, List.mem_append_left _ (List.mem_append_right _ List.mem_cons_self), .here⟩) hcl hd hkid ?_
      obtain ⟨A, B, rfl, hA⟩ := split_at hy
      refine key (r :: L) (fun g => (decV c (l + 1) r.ptr sh).bind fun _ => f (n, g.2)) m3 n 0 A B y hv3 hA hyv hc3 ?_
      intro m4 g leaf j xs xe t Os Lo hk4 hc4 hxe hl4 hgot
      refine safe_perm (L1 := r :: (Lo ++ L)) (.refl _) List.perm_middle ?_
      refine decV_safe hB (l + 1) hr hf fun m5 hk5 => ?_
      refine h m5 n leaf j xs xe t Os Lo ?_ ((hk5.2 leaf List.mem_cons_self).trans hc4) hxe hl4 fun fn R hR => (hgot fn R hR).kept fun a ha => hk5.2 a (List.mem_cons_of_mem _ (List.mem_append_left _ ha))
      refine (Kept.head (((hk1.trans hk2).trans hk3).trans hk4)).trans (hk5.mono (fun x hx => ?_) fun x hx => List.mem_cons_of_mem _ (List.mem_append_right _ hx))
      rw [List.append_assoc]; exact List.mem_append_right _ hx
    · simp only [if_true, bind_assoc, ret_bind]
      obtain ⟨y, hy, hyv⟩ := nth_ref hv1 h5
      refine lift_safe h6 (kid_safe (.inl List.mem_cons_self) hc1 rfl (by rw [List.getElem?_map, hy]; rfl) ?_)
      obtain ⟨A, B, rfl, hA⟩ := split_at hy
      refine key L (fun g => f (r.ptr, g.2)) m1 r.ptr t A B y hv1 hA hyv hc1 ?_
      intro m4 g leaf j xs xe t Os Lo hk4 hc4 hxe hl4 hgot
      exact h m4 r.ptr leaf j xs xe t Os Lo (hk1.trans hk4) hc4 hxe hl4 hgot

end Thr
