import Verif.Threads.Visit
import Verif.VecHeap.Vector

/-!
# The operations of vectors, in a thread
-/

namespace Thr
open Mm Rrb VecHeap
open Thr.Prog (ret undef)

variable {T δ : Type} {c : Cfg} {G : Refs T} {O : List Nat} {L : Refs T} {m m' : Mem Dat T} {Q : List Nat → Refs T → Mem Dat T → δ → Prop} {p q i n : Nat}
  {xs l : List T} {N R : Node T} {t t' : Tree T} {v : Vc} {f : T → T} {x : T}

/-- going on with a new vector -/
abbrev Next (c : Cfg) (G : Refs T) (K : Vc → TM T δ) (O : List Nat) (L : Refs T) (m : Mem Dat T) (Q : List Nat → Refs T → Mem Dat T → δ → Prop) (t : Tree T) : Prop :=
  ∀ m' v, Is v t → TKept c G O L m m' → TSafe c G (K v) O (refs v t 0 ++ L) m' Q

theorem kept_perm {L1 L2 : Refs T} (h : TKept c G O L1 m m') (hp : ∀ x ∈ L2, x ∈ L1) : TKept c G O L2 m m' :=
  h.mono (fun x hx => (List.mem_append.mp hx).elim (fun hx => List.mem_append_left _ (hp x hx)) (fun hx => List.mem_append_right _ hx)) fun _ h => h

theorem kept_O {O1 : List Nat} (h : TKept c G O1 L m m') (hp : ∀ x ∈ O, x ∈ O1) : TKept c G O L m m' := h.mono (fun _ h => h) hp

/-- destructor -/
theorem drop_safe {K : Unit → TM T δ} (hB : 0 < c.B) (hi : Is v t) (hv : Vec.Inv c t l) (h : ∀ m', TKept c G O L m m' → TSafe c G (K ()) O L m' Q) :
    TSafe c G ((drop c v).bind K) O (refs v t 0 ++ L) m Q := by
  obtain ⟨pre, tl, rfl, hp⟩ := parts hB hi hv
  have hleaf : ∀ m1, TKept c G O (rf v.tail t.tail :: L) m m1 → TSafe c G ((decLeaf c v.tail (v.size - v.off c)).bind K) O (rf v.tail t.tail :: L) m1 Q := by
    intro m1 hk1
    have := decLeaf_safe (c := c) (G := G) (f := K) (O := O) (L := L) (m := m1) (Q := Q) (r := rf v.tail t.tail) (xs := tl) (by rw [hp.tail]) fun m2 hk2 => h m2 ((Kept.head hk1).trans hk2)
    rw [hp.rest]
    exact this
  unfold drop
  rw [bind_assoc]
  rcases hp.root with ⟨h1, h2, h3⟩ | ⟨d, h1, h2, h3, h4, h5, h6, -⟩
  · rw [if_neg (by rw [hp.off, h1]; simp)]
    exact decEmpty_safe (r := rf v.root t.root) (by rw [← h2]) hleaf
  · rw [if_pos (by rw [hp.off]; simpa using h1), h3]
    exact decV_safe hB (d + 1) (r := rf v.root t.root) rfl h6 hleaf

theorem refs_at (hr : ∀ r ∈ refs v t 0, r ∈ L ++ G) {K : TM T δ} (h : ∀ m', TKept c G O L m m' → TAt c G L m' v.root t.root → TAt c G L m' v.tail t.tail → TSafe c G K O L m' Q) : TSafe c G K O L m Q := by
  refine safe_at (r := rf v.root t.root) (hr _ (by simp [refs])) rfl fun m1 hk1 ha1 => ?_
  refine safe_at (r := rf v.tail t.tail) (hr _ (by simp [refs])) rfl fun m2 hk2 ha2 => ?_
  exact h m2 (hk1.trans hk2) (ha1.kept hk2) ha2

/-- two references -/
theorem inc2_safe {K : Unit → TM T δ} {a b : Nat} {A B : Node T} (ha : TAt c G L m a A) (hb : TAt c G L m b B) (h : ∀ m', TKept c G O L m m' → TSafe c G (K ()) O (rf b B :: rf a A :: L) m' Q) :
    TSafe c G ((inc a).bind fun _ => (inc b).bind K) O L m Q := by
  refine inc_safe ha fun m1 hk1 => inc_safe ((hb.kept hk1).mono fun r hr => List.mem_cons_of_mem _ hr) fun m2 hk2 => h m2 (hk1.trans (Kept.head hk2))

/-- copy constructor -/
theorem share_safe {K : Unit → TM T δ} (hr : ∀ r ∈ refs v t 0, r ∈ L ++ G) (h : ∀ m', TKept c G O L m m' → TSafe c G (K ()) O (refs v t 0 ++ L) m' Q) : TSafe c G ((share v).bind K) O L m Q := by
  unfold share
  rw [bind_assoc]
  refine refs_at hr fun m1 hk1 ha hb => inc2_safe ha hb fun m2 hk2 => ?_
  exact safe_perm (.refl _) (List.Perm.swap _ _ _) (h m2 (hk1.trans hk2))

/-- default constructor -/
theorem empty_safe {er et : Nat} {K : Vc → TM T δ} (hs : Statics er et G) (h : Next c G K O L m Q (Vec.empty c)) : TSafe c G ((empty c er et).bind K) O L m Q := by
  unfold empty
  simp only [bind_assoc, ret_bind]
  refine safe_at (r := rf er emptyRoot) (List.mem_append_right _ hs.1) rfl fun m1 hk1 ha1 => ?_
  refine safe_at (r := rf et emptyTail) (List.mem_append_right _ hs.2) rfl fun m2 hk2 ha2 => ?_
  refine inc2_safe (ha1.kept hk2) ha2 fun m3 hk3 => ?_
  exact safe_perm (.refl _) (List.Perm.swap _ _ _) (h m3 _ ⟨rfl, rfl⟩ ((hk1.trans hk2).trans hk3))

/-- `ensure_mutable_tail` -/
theorem mutableTail_safe {K : Vc → TM T δ} (hn : xs.length = n) (hb : n ≤ 2 ^ c.BL)
    (h : ∀ m' q k, TKept c G O L m m' → m' q = some (lcell c k xs) → TSafe c G (K { v with tail := q }) (q :: O) L m' Q) : TSafe c G ((mutableTail c v n).bind K) O (rf v.tail (.leaf xs) :: L) m Q := by
  unfold mutableTail
  rw [bind_assoc]
  refine unique_leaf (r := rf v.tail (.leaf xs)) rfl ?_ fun m1 k hk1 hc1 _ => ?_
  · simp only [Bool.false_eq_true, if_false, bind_assoc, ret_bind]
    refine safe_at (r := rf v.tail (.leaf xs)) List.mem_cons_self rfl fun m1 hk1 ha1 => ?_
    subst hn
    refine copyLeaf_safe ha1 rfl hb fun m2 a h0 hk2 hc2 => ?_
    exact decLeaf_safe (r := rf v.tail (.leaf xs)) rfl fun m3 hk3 => h m3 a 0 ((Kept.head (hk1.trans hk2)).trans (Kept.close' hk3)) ((hk3.2 a List.mem_cons_self).trans hc2)
  · exact h m1 v.tail k hk1 hc1

/-- a new tail -/
theorem leafOf_safe {K : Nat → TM T δ} (h : ∀ m' a, TKept c G O L m m' → TSafe c G (K a) O (rf a (.leaf [x]) :: L) m' Q) : TSafe c G ((leafOf c x).bind K) O L m Q := by
  unfold leafOf
  simp only [bind_assoc, ret_bind]
  refine newLeaf_safe fun m1 a h0 hk1 hc1 => construct_safe hc1 rfl Nat.one_le_two_pow fun m2 hk2 hc2 => ?_
  exact close_leaf hc2 Nat.one_le_two_pow (h m2 a (hk1.trans hk2))

theorem two_le (hB : 0 < c.B) : 2 ≤ 2 ^ c.B := by
  calc 2 = 2 ^ 1 := rfl
    _ ≤ 2 ^ c.B := Nat.pow_le_pow_right (by omega) hB

/-- `push_back_mut` -/
theorem pushBackMut_safe {K : Vc → TM T δ} (hB : 0 < c.B) (hi : Is v t) (hv : Vec.Inv c t l) (hp : Vec.pushBack c t x = some t') (h : Next c G K O L m Q t') :
    TSafe c G ((pushBackMut c v x).bind K) O (refs v t 0 ++ L) m Q := by
  obtain ⟨pre, tl, rfl, hpt⟩ := parts hB hi hv
  unfold pushBackMut
  rw [hpt.rest]
  rcases hpt.push hB hi hp with ⟨h1, rfl⟩ | ⟨h1, h2, h3, hcases⟩
  · rw [if_pos h1]
    simp only [bind_assoc, ret_bind]
    refine safe_perm (.refl _) (List.Perm.swap _ _ _) ?_
    rw [hpt.tail]
    refine mutableTail_safe (v := v) rfl (by omega) fun m1 q k hk1 hc1 => ?_
    refine construct_safe hc1 hpt.rest h1 fun m2 hk2 hc2 => ?_
    refine close_leaf hc2 (by simp; omega) (safe_perm (.refl _) (List.Perm.swap _ _ _) ?_)
    exact h m2 _ ⟨by simp [hi.size], hi.shift⟩ ((Kept.head hk1).trans (Kept.head hk2))
  · rw [if_neg h1]
    simp only [bind_assoc]
    refine leafOf_safe fun m1 nt hk1 => ?_
    have hk1' : TKept c G O L m m1 := kept_perm hk1 fun x hx => List.mem_cons_of_mem _ (List.mem_cons_of_mem _ hx)
    have hdone : ∀ m2 nr sh, t'.shift = sh → TKept c G O L m1 m2 → TSafe c G (K ⟨v.size + 1, sh, nr, nt⟩) O (rf nr t'.root :: rf nt (.leaf [x]) :: L) m2 Q := by
      rintro m2 nr sh rfl hk2
      have := h m2 ⟨v.size + 1, t'.shift, nr, nt⟩ ⟨by rw [h2, hi.size], rfl⟩ (hk1'.trans hk2)
      unfold refs at this
      rw [h3] at this
      exact this
    rcases hcases with ⟨a1, a2, a3⟩ | ⟨a1, a2, a3, d, a4, a5, a6, a7, a8⟩ | ⟨a1, a2, a3, a4, a5, a6⟩
    · rw [if_pos a1]
      simp only [bind_assoc, ret_bind]
      refine newInner_safe fun m2 nr h0 hk2 hc2 => ?_
      refine makePath_safe (rt := rf v.tail t.tail) rfl _ fun m3 q Os Lp hk3 hpd => ?_
      refine safe_perm (L1 := rf v.tail t.tail :: (Lp ++ (rf v.root t.root :: rf nt (.leaf [x]) :: L))) (.refl _) ?_ (hpd m3 (fun _ _ => rfl) _ _ _ _ _ ?_)
      · refine (List.Perm.append_left _ ?_).trans List.perm_middle
        exact (List.perm_middle (l₁ := [rf nt (.leaf [x]), rf v.root t.root])).trans (.cons _ (List.Perm.swap _ _ _))
      have h2B := two_le hB
      refine pushKid_safe (ks := []) ((hk3.2 _ List.mem_cons_self).trans hc2) rfl (by simp) fun m4 hk4 hc4 => ?_
      refine pushKid_safe hc4 rfl (by simp; omega) fun m5 hk5 hc5 => ?_
      refine safe_perm (L1 := [rf v.root t.root, rf q (mkPath (levels c v.shift) t.tail)] ++ (rf nt (.leaf [x]) :: L)) (.refl _) (List.Perm.swap _ _ _) ?_
      refine close_inner (Ns := [t.root, mkPath (levels c v.shift) t.tail]) hc5 rfl (by simp; omega) ?_
      rw [← a3]
      refine hdone m5 nr _ (by rw [a2, hi.shift]) ?_
      refine Kept.trans (Kept.trans ?_ (kept_perm (hk4.trans hk5) fun z hz => ?_)) .refl
      · refine kept_perm (hk2.trans (Kept.close' hk3)) fun z hz => ?_
        simp [refs, hz]
      · simp [hz]
    · rw [if_neg a1, if_pos a2, a4]
      simp only [bind_assoc, ret_bind]
      refine safe_perm (L1 := rf v.root t.root :: rf v.tail t.tail :: (rf nt (.leaf [x]) :: L)) (.refl _) ?_ ?_
      · exact (List.perm_middle (l₁ := [rf v.root t.root, rf v.tail t.tail])).symm
      refine pushTailMut_safe (rt := rf v.tail t.tail) hB rfl d a5 a6 a7 a8 rfl fun m2 q hk2 => ?_
      exact hdone m2 q _ (by rw [a3, hi.shift]) (Kept.head hk2)
    · rw [if_neg a1, if_neg (by rw [a2]; simp), a5]
      simp only [bind_assoc, ret_bind]
      refine makePath_safe (rt := rf v.tail t.tail) rfl 1 fun m3 q Os Lp hk3 hpd => ?_
      refine safe_perm (L1 := rf v.tail t.tail :: (Lp ++ (rf v.root t.root :: rf nt (.leaf [x]) :: L))) (.refl _) ?_ (hpd m3 (fun _ _ => rfl) _ _ _ _ _ ?_)
      · refine (List.Perm.append_left _ ?_).trans List.perm_middle
        exact (List.perm_middle (l₁ := [rf nt (.leaf [x]), rf v.root t.root])).trans (.cons _ (List.Perm.swap _ _ _))
      refine safe_perm (.refl _) (List.Perm.swap _ _ _) (decEmpty_safe (r := rf v.root t.root) (by rw [a3]) fun m4 hk4 => ?_)
      have := hdone m4 q v.shift (by rw [a4, hi.shift]) (Kept.trans (kept_perm hk3 fun z hz => by simp [refs, hz]) (kept_perm hk4 fun z hz => by simp [hz]))
      rw [a6] at this
      exact this

/-- `push_back` -/
theorem pushBack_safe {K : Vc → TM T δ} (hB : 0 < c.B) (hi : Is v t) (hv : Vec.Inv c t l) (hp : Vec.pushBack c t x = some t') (hr : ∀ r ∈ refs v t 0, r ∈ L ++ G) (h : Next c G K O L m Q t') :
    TSafe c G ((pushBack c v x).bind K) O L m Q := by
  obtain ⟨pre, tl, rfl, hpt⟩ := parts hB hi hv
  refine refs_at hr fun m0 hk0 har hat => ?_
  unfold pushBack
  rw [hpt.rest]
  rcases hpt.push hB hi hp with ⟨h1, rfl⟩ | ⟨h1, h2, h3, hcases⟩
  · rw [if_pos h1]
    unfold copyLeafEmplace
    simp only [bind_assoc, ret_bind]
    rw [hpt.tail] at hat
    refine copyLeaf_safe hat rfl (by omega) fun m1 a h0 hk1 hc1 => ?_
    refine construct_safe hc1 rfl h1 fun m2 hk2 hc2 => close_leaf hc2 (by simp; omega) ?_
    have har2 : TAt c G L m2 v.root t.root := har.kept (hk1.trans hk2)
    refine inc_safe (har2.mono fun r hr => List.mem_cons_of_mem _ hr) fun m3 hk3 => ?_
    exact h m3 _ ⟨by simp [hi.size], hi.shift⟩ (((hk0.trans hk1).trans hk2).trans (Kept.head hk3))
  · rw [if_neg h1]
    simp only [bind_assoc]
    refine leafOf_safe fun m1 nt hk1 => ?_
    have har1 : TAt c G (rf nt (.leaf [x]) :: L) m1 v.root t.root := (har.kept hk1).mono fun r hr => List.mem_cons_of_mem _ hr
    have hat1 : TAt c G (rf nt (.leaf [x]) :: L) m1 v.tail t.tail := (hat.kept hk1).mono fun r hr => List.mem_cons_of_mem _ hr
    have hdone : ∀ m2 nr sh, t'.shift = sh → TKept c G O L m1 m2 → TSafe c G (K ⟨v.size + 1, sh, nr, nt⟩) O (rf nr t'.root :: rf nt (.leaf [x]) :: L) m2 Q := by
      rintro m2 nr sh rfl hk2
      have := h m2 ⟨v.size + 1, t'.shift, nr, nt⟩ ⟨by rw [h2, hi.size], rfl⟩ ((hk0.trans hk1).trans hk2)
      unfold refs at this
      rw [h3] at this
      exact this
    rcases hcases with ⟨a1, a2, a3⟩ | ⟨a1, a2, a3, d, a4, a5, a6, a7, a8⟩ | ⟨a1, a2, a3, a4, a5, a6⟩
    · rw [if_pos a1]
      simp only [bind_assoc, ret_bind]
      refine newInner_safe fun m2 nr h0 hk2 hc2 => ?_
      refine makePath_safe (rt := rf v.tail t.tail) rfl _ fun m3 q Os Lp hk3 hpd => ?_
      have h2B := two_le hB
      refine safe_perm (O1 := nr :: (Os ++ O)) (L1 := Lp ++ (rf nt (.leaf [x]) :: L)) List.perm_middle (.refl _) ?_
      refine pushKid_safe (ks := []) ((hk3.2 _ List.mem_cons_self).trans hc2) rfl (by simp) fun m4 hk4 hc4 => ?_
      refine pushKid_safe hc4 rfl (by simp; omega) fun m5 hk5 hc5 => ?_
      have hk25 : TKept c G O (rf nt (.leaf [x]) :: L) m1 m5 :=
        (hk2.trans (Kept.close' hk3)).trans (kept_O (kept_perm (hk4.trans hk5) fun z hz => List.mem_append_right _ hz) fun z hz => List.mem_append_right _ hz)
      have hsub : ∀ r ∈ (rf nt (.leaf [x]) :: L) ++ G, r ∈ (Lp ++ (rf nt (.leaf [x]) :: L)) ++ G := fun r hr => by rw [List.append_assoc]; exact List.mem_append_right _ hr
      refine inc2_safe ((har1.kept hk25).mono hsub) ((hat1.kept hk25).mono hsub) fun m6 hk6 => ?_
      refine safe_perm (O1 := Os ++ (nr :: O)) (L1 := rf v.tail t.tail :: (Lp ++ (rf v.root t.root :: rf nt (.leaf [x]) :: L))) List.perm_middle.symm (.cons _ List.perm_middle.symm) ?_
      refine hpd m6 (fun a ha => (hk6.2 a ?_).trans ((hk5.2 a (List.mem_append_left _ ha)).trans (hk4.2 a (List.mem_append_left _ ha)))) _ _ _ _ _ ?_
      · exact List.mem_cons_of_mem _ (List.mem_append_left _ ha)
      refine safe_perm (L1 := [rf v.root t.root, rf q (mkPath (levels c v.shift) t.tail)] ++ (rf nt (.leaf [x]) :: L)) (.refl _) (List.Perm.swap _ _ _) ?_
      refine close_inner (Ns := [t.root, mkPath (levels c v.shift) t.tail]) ((hk6.2 _ List.mem_cons_self).trans hc5) rfl (by simp; omega) ?_
      rw [← a3]
      refine hdone m6 nr _ (by rw [a2, hi.shift]) ((Kept.head hk25).trans (kept_O (kept_perm hk6 fun z hz => ?_) fun z hz => ?_))
      · exact List.mem_append_right _ (List.mem_cons_of_mem _ hz)
      · exact List.mem_cons_of_mem _ (List.mem_append_right _ hz)
    · rw [if_neg a1, if_pos a2, a4]
      simp only [bind_assoc, ret_bind]
      refine pushTailNew_safe (rt := rf v.tail t.tail) hB rfl d a5 a6 a7 a8 har1 fun m2 q Os Lp hk2 hpd => ?_
      have hsub : ∀ r ∈ (rf nt (.leaf [x]) :: L) ++ G, r ∈ (Lp ++ (rf nt (.leaf [x]) :: L)) ++ G := fun r hr => by rw [List.append_assoc]; exact List.mem_append_right _ hr
      refine inc_safe ((hat1.kept hk2).mono hsub) fun m3 hk3 => ?_
      refine hpd m3 (fun a ha => hk3.2 a (List.mem_append_left _ ha)) _ _ _ _ _ ?_
      refine hdone m3 q _ (by rw [a3, hi.shift]) ((Kept.head hk2).trans (kept_O (kept_perm hk3 fun z hz => ?_) fun z hz => List.mem_append_right _ hz))
      exact List.mem_append_right _ (List.mem_cons_of_mem _ hz)
    · rw [if_neg a1, if_neg (by rw [a2]; simp), a5]
      simp only [bind_assoc, ret_bind]
      refine makePath_safe (rt := rf v.tail t.tail) rfl 1 fun m2 q Os Lp hk2 hpd => ?_
      have hsub : ∀ r ∈ (rf nt (.leaf [x]) :: L) ++ G, r ∈ (Lp ++ (rf nt (.leaf [x]) :: L)) ++ G := fun r hr => by rw [List.append_assoc]; exact List.mem_append_right _ hr
      refine inc_safe ((hat1.kept hk2).mono hsub) fun m3 hk3 => ?_
      refine hpd m3 (fun a ha => hk3.2 a (List.mem_append_left _ ha)) _ _ _ _ _ ?_
      have := hdone m3 q v.shift (by rw [a4, hi.shift]) ((Kept.head hk2).trans (kept_O (kept_perm hk3 fun z hz => List.mem_append_right _ (List.mem_cons_of_mem _ hz)) fun z hz => List.mem_append_right _ hz))
      rw [a6] at this
      exact this

/-- `update` -/
theorem update_safe {K : Vc → TM T δ} (hB : 0 < c.B) (hi : Is v t) (hv : Vec.Inv c t l) (hlt : i < l.length) (hp : Vec.update c t i f = some t') (hr : ∀ r ∈ refs v t 0, r ∈ L ++ G) (h : Next c G K O L m Q t') :
    TSafe c G ((update c f v i).bind K) O L m Q := by
  obtain ⟨pre, tl, rfl, hpt⟩ := parts hB hi hv
  refine refs_at hr fun m0 hk0 har hat => ?_
  unfold update
  rw [hpt.rest]
  rcases hpt.update hi (by simpa using hlt) hp with ⟨h1, h2, _, R, h3, rfl⟩ | ⟨h1, d, R, h2, h3, h4, rfl⟩
  · rw [if_pos h1]
    simp only [bind_assoc, ret_bind]
    refine updateV_safe hB f 0 h2 h3 hat fun m1 q hk1 => ?_
    have har1 : TAt c G L m1 v.root t.root := har.kept hk1
    refine inc_safe (har1.mono fun r hr => List.mem_cons_of_mem _ hr) fun m2 hk2 => ?_
    exact h m2 _ ⟨hi.size, hi.shift⟩ ((hk0.trans hk1).trans (Kept.head hk2))
  · rw [if_neg h1, h2]
    simp only [bind_assoc, ret_bind]
    refine updateV_safe hB f (d + 1) h3 h4 har fun m1 q hk1 => ?_
    have hat1 : TAt c G L m1 v.tail t.tail := hat.kept hk1
    refine inc_safe (hat1.mono fun r hr => List.mem_cons_of_mem _ hr) fun m2 hk2 => ?_
    exact safe_perm (.refl _) (List.Perm.swap _ _ _) (h m2 _ ⟨hi.size, hi.shift⟩ ((hk0.trans hk1).trans (Kept.head hk2)))

/-- `update_mut` -/
theorem updateMut_safe {K : Vc → TM T δ} (hB : 0 < c.B) (hi : Is v t) (hv : Vec.Inv c t l) (hlt : i < l.length) (hp : Vec.update c t i f = some t') (h : Next c G K O L m Q t') :
    TSafe c G ((updateMut c f v i).bind K) O (refs v t 0 ++ L) m Q := by
  have hv0 := hv
  obtain ⟨pre, tl, rfl, hpt⟩ := parts hB hi hv
  unfold updateMut
  rw [hpt.rest]
  by_cases h1 : v.off c ≤ i
  · rw [if_pos h1]
    simp only [bind_assoc, ret_bind]
    refine safe_perm (.refl _) (List.Perm.swap _ _ _) ?_
    rw [hpt.tail]
    refine mutableTail_safe (v := v) rfl hpt.le fun m1 q k hk1 hc1 => ?_
    have hle := hpt.le
    rcases hpt.update hi (by simpa using hlt) hp with ⟨_, _, ⟨y, h2, rfl⟩, _⟩ | ⟨h1', _⟩
    · have hx := getElem?_lt h2
      have hidx : i &&& (2 ^ c.BL - 1) = i - v.off c := by
        rw [hpt.off] at h1 hx ⊢
        exact low_bits hpt.dvd h1 (by omega)
      rw [hidx]
      refine applyEl_safe hc1 h2 fun m2 hk2 hc2 => close_leaf hc2 (by simpa using hle) ?_
      exact safe_perm (.refl _) (List.Perm.swap _ _ _) (h m2 _ ⟨hi.size, hi.shift⟩ ((Kept.head hk1).trans (Kept.head hk2)))
    · exact absurd h1 h1'
  · rw [if_neg h1]
    simp only [bind_assoc, ret_bind]
    have key : ∀ g t', Vec.update c t i g = some t' → ∃ d R, levels c v.shift = d + 1 ∧ Fits c (d + 1) (v.shp c) t.root ∧ Rrb.updateV c g (d + 1) ((v.shp c).pos t.root) i = some R ∧ t' = { t with root := R } := by
      intro g t' ht'
      rcases hpt.update hi (by simpa using hlt) ht' with ⟨h1', _⟩ | ⟨_, h2⟩
      · exact absurd h1' h1
      · exact h2
    obtain ⟨d, R, h2, h3, h4, rfl⟩ := key _ _ hp
    have hall : ∀ g, ∃ R, Rrb.updateV c g (d + 1) ((v.shp c).pos t.root) i = some R := by
      intro g
      obtain ⟨t2, ht2, _⟩ := Vec.update_spec hB hv0 hlt g
      obtain ⟨d', R', h2', _, h4', _⟩ := key _ _ ht2
      rw [h2] at h2'
      have : d = d' := by omega
      subst this
      exact ⟨R', h4'⟩
    rw [h2]
    refine getMut_safe hB (d + 1) (r := rf v.root t.root) h3 hall rfl fun m1 g leaf j xs y k Os Lo hk1 hc1 hy hl1 hgot => ?_
    refine applyEl_safe (fn := f) hc1 hy fun m2 hk2 hc2 => close_leaf hc2 (by simpa using hl1) ?_
    refine hgot f R h4 m2 (fun a ha => hk2.2 a (List.mem_append_left _ ha)) _ _ _ _ _ ?_
    refine h m2 _ ⟨hi.size, hi.shift⟩ ((Kept.head hk1).trans (kept_O (kept_perm hk2 fun z hz => ?_) fun z hz => List.mem_append_right _ hz))
    exact List.mem_append_right _ (List.mem_cons_of_mem _ hz)

theorem descend_safe {K : Nat → TM T δ} : ∀ (d p : Nat) (N R : Node T) (j : Nat), Reg c d N → TAt c G L m p N → descendRegular c d N i = some (R, j) → (∀ q, TAt c G L m q R → TSafe c G (K q) O L m Q) →
    TSafe c G ((descend c d p i).bind K) O L m Q
  | 0, p, N, R, j, _, hd, h, hK => by
    cases h
    exact hK p hd
  | d + 1, p, N, R, j, hr, hd, h, hK => by
    match N, hr with
    | .inner none cs, ⟨hl, ds, e, he, hds, hre⟩ =>
      simp only [descendRegular, Node.inner?, Option.bind_eq_bind, Option.bind_some, Option.bind_eq_some_iff] at h
      obtain ⟨x, hx, h⟩ := h
      obtain ⟨cl, cap, Lc, hc, hdt, hval, hxs⟩ := at_inner hd
      obtain ⟨y, hy, hyv⟩ := nth_ref hval hx
      have hya := (hxs y (List.mem_of_getElem? hy)).2.2
      rw [hyv] at hya
      have hreg : Reg c d x := by
        have : x ∈ ds ++ [e] := he ▸ List.mem_of_getElem? hx
        rcases List.mem_append.mp this with h | h
        · exact (hds x h).reg
        · rw [List.mem_singleton.mp h]; exact hre
      unfold descend
      rw [bind_assoc]
      exact kid_safe (.inr hd.reach) hc hdt (by rw [List.getElem?_map, hy]; rfl) (descend_safe d y.ptr x R j hreg hya h hK)

/-- `get` -/
theorem get_safe {K : T → TM T δ} (hB : 0 < c.B) (hi : Is v t) (hv : Vec.Inv c t l) (hf : Vec.Fits c l.length) (hx : l[i]? = some x) (hr : ∀ r ∈ refs v t 0, r ∈ L ++ G)
    (h : ∀ m', TKept c G O L m m' → TSafe c G (K x) O L m' Q) : TSafe c G ((get c v i).bind K) O L m Q := by
  have hlt := getElem?_lt hx
  obtain ⟨xs, hd, ⟨a, b, hl, hm, hxl⟩, _⟩ := Vec.descend_spec hB hv hf hlt
  obtain ⟨pre, tl, hl2, hpt⟩ := parts hB hi hv
  refine refs_at hr fun m0 hk0 har hat => ?_
  simp only [Vec.descend, hpt.off'] at hd
  unfold get
  rw [hpt.off]
  have key : ∀ q, TAt c G L m0 q (.leaf xs) → TSafe c G ((readEl q (i &&& (2 ^ c.BL - 1))).bind K) O L m0 Q := by
    intro q hq
    obtain ⟨cl, hc, _, hel⟩ := at_leaf hq
    refine readEl_safe (.inr hq.reach) hc (Elems.live hel ?_) (h m0 hk0)
    rw [← Rrb.At.get (l := l) (i := i) ⟨a, b, hl, hm, hxl⟩, hx]
  by_cases hle : pre.length ≤ i
  · rw [if_pos hle] at hd ⊢
    have he : t.tail = .leaf xs := by
      simpa using hd
    rw [he] at hat
    exact key _ hat
  · rw [if_neg hle] at hd ⊢
    rcases hpt.root with ⟨rfl, _, _⟩ | ⟨d, hne, hs, hlev, hreg, he, hfit, hpos⟩
    · simp at hle
    · simp only [visitRegularDescent, Option.bind_eq_bind, Option.bind_eq_some_iff] at hd
      obtain ⟨⟨r1, r2⟩, h1, h2⟩ := hd
      have h3 : c.deep = true ∨ d < 6 := by
        by_cases h6 : d < 6
        · exact .inr h6
        · left
          by_contra hdeep
          rw [← hi.shift, hs, descentLevels_deep hB d (Bool.eq_false_iff.mpr hdeep) (by omega)] at h1
          cases h1
      obtain ⟨b', hb'⟩ := descentLevels_shift hB d h3
      rw [← hi.shift, hs, hb'] at h1
      cases h1
      rw [hs]
      simp only [bind_assoc]
      exact lift_safe hb' (descend_safe (d + 1) v.root _ _ _ hreg har h2 key)

end Thr
