import Verif.Threads.Order

/-!
# What loads of counts see

A load may see a value of the count that is out of date.  A thread that has a reference to a node of its own knows of a value of
the count since which it was never 1, except perhaps now.  So if it sees a 1 then this is the last value.
-/

namespace Thr
open Mm

/-- between the value `e` and the last one, without that, there is no 1 -/
def Fresh (e : Nat) (H : List Mod) : Prop := ∃ pre y post, H = pre ++ y :: post ∧ y.id = e ∧ ∀ z ∈ (pre ++ [y]).tail, 2 ≤ z.val

section
variable {e : Nat} {H : List Mod} {y : Mod}

theorem Fresh.head : Fresh y.id (y :: H) := ⟨[], y, H, rfl, rfl, by simp⟩

theorem Fresh.cons {y0 : Mod} (h : Fresh e (y0 :: H)) (h2 : 2 ≤ y0.val) : Fresh e (y :: y0 :: H) := by
  obtain ⟨pre, z, post, h1, h3, h4⟩ := h
  refine ⟨y :: pre, z, post, by rw [h1]; rfl, h3, fun x hx => ?_⟩
  have hx : x ∈ pre ++ [z] := hx
  cases pre with
  | nil =>
    cases h1
    rw [List.mem_singleton.mp hx]; exact h2
  | cons p pre =>
    cases h1
    rcases List.mem_cons.mp hx with rfl | hx
    · exact h2
    · exact h4 x hx

/-- a 1 that can be seen is the last value -/
theorem Fresh.sees {K : List Nat} {pre post : List Mod} (h : Fresh e H) (he : e ∈ K) (hh : H = pre ++ y :: post) (hp : ∀ z ∈ pre, z.id ∉ K) (h1 : y.val = 1) : pre = [] := by
  obtain ⟨pre', y', post', h2, rfl, h4⟩ := h
  by_contra hne
  have hpos : 0 < pre.length := List.length_pos_iff.mpr hne
  by_cases hl : pre'.length < pre.length
  · have h5 : pre[pre'.length]? = some y' := by
      have h6 : H[pre'.length]? = some y' := by rw [h2]; simp
      rw [hh, List.getElem?_append_left hl] at h6
      exact h6
    exact hp y' (List.mem_of_getElem? h5) he
  · have h6 : H[pre.length]? = some y := by rw [hh]; simp
    have h7 : (pre' ++ [y'])[pre.length]? = some y := by
      rw [h2, show pre' ++ y' :: post' = (pre' ++ [y']) ++ post' by simp, List.getElem?_append_left (by simp; omega)] at h6
      exact h6
    have h8 : (pre' ++ [y']).tail[pre.length - 1]? = some y := by
      rw [List.getElem?_tail, show pre.length - 1 + 1 = pre.length by omega]
      exact h7
    have := h4 y (List.mem_of_getElem? h8)
    omega

end

variable {D T V : Type} {S : Sys D T V} {G : List (Ref V)} {O O' O0 O1 : List Nat} {L L' L0 L1 : List (Ref V)} {m m' : Mem D T} {o : Op} {a : Nat} {k : Clk} {h : Nat → List Mod}

/-- somebody who has the node knows of `e`, or will get to know of it together with the last reference to a node above it -/
def Link (S : Sys D T V) (G : List (Ref V)) (m : Mem D T) (O : List Nat) (k : Clk) (A : Agents V) (e p : Nat) : Prop :=
  (∃ O L K, A O L K ∧ Mine S G O L m p ∧ e ∈ K) ∨ ∃ q, m q ≠ none ∧ q ∉ O ∧ From S m q p ∧ e ∈ k.rel q

structure Recent (S : Sys D T V) (G : List (Ref V)) (m : Mem D T) (O : List Nat) (k : Clk) (h : Nat → List Mod) (A : Agents V) : Prop where
  head : ∀ a c, m a = some c → ∃ y H, h a = y :: H ∧ y.val = c.rc ∧ y.rel = k.rel a
  mine : ∀ O L K, A O L K → ∀ x, (x ∈ O ∨ ∃ r ∈ L, r.ptr = x) → ∃ e ∈ K, Fresh e (h x)
  kids : ∀ p c, m p = some c → p ∉ O → ∀ x ∈ S.outs c.data, ∃ e, Fresh e (h x) ∧ Link S G m O k A e p

theorem Link.mono {A A' : Agents V} {e p : Nat} (h : Link S G m O k A e p) (hO : ∀ x ∈ O1, x ∈ O)
    (h1 : ∀ O L K, A O L K → ∀ x, Mine S G O L m x → ∃ O' L' K', A' O' L' K' ∧ Mine S G O' L' m x ∧ ∀ e ∈ K, e ∈ K') : Link S G m O1 k A' e p := by
  rcases h with ⟨O, L, K, hA, hm, hk⟩ | ⟨q, h3, h4, h5⟩
  · obtain ⟨O', L', K', h3, h4, h5⟩ := h1 O L K hA p hm
    exact .inl ⟨O', L', K', h3, h4, h5 _ hk⟩
  · exact .inr ⟨q, h3, fun hq => h4 (hO q hq), h5⟩

/-- the same references, in other hands -/
theorem Recent.mono {A A' : Agents V} (hr : Recent S G m O k h A) (hO : ∀ x, x ∈ O1 ↔ x ∈ O) (h1 : ∀ O L K, A O L K → ∀ x, Mine S G O L m x → ∃ O' L' K', A' O' L' K' ∧ Mine S G O' L' m x ∧ ∀ e ∈ K, e ∈ K')
    (h2 : ∀ O L K, A' O L K → ∀ x, (x ∈ O ∨ ∃ r ∈ L, r.ptr = x) → ∃ O' L' K', A O' L' K' ∧ (x ∈ O' ∨ ∃ r ∈ L', r.ptr = x) ∧ ∀ e ∈ K', e ∈ K) : Recent S G m O1 k h A' where
  head := hr.head
  mine := by
    intro O L K hA x hx
    obtain ⟨O', L', K', h3, h4, h5⟩ := h2 O L K hA x hx
    obtain ⟨e, he, hf⟩ := hr.mine O' L' K' h3 x h4
    exact ⟨e, h5 e he, hf⟩
  kids := by
    intro p c hc hp x hx
    obtain ⟨e, he, hl⟩ := hr.kids p c hc (fun h => hp ((hO p).mpr h)) x hx
    exact ⟨e, he, hl.mono (fun x hx => (hO x).mp hx) h1⟩

/-- counting references -/
theorem refs_back {A A1 B Ba Q Q1 : List Nat} {g g1 : Nat → V} {X : List (Ref V)} (hg : S.gc = false) (h : Good S m A Q g (L ++ X)) (h1 : Good S m' A1 Q1 g1 (L1 ++ X)) (hA : A.Perm (Ba ++ B))
    (hB : ∀ x ∈ B, x ∈ A1 ∧ outsAt S m' x = outsAt S m x) {x : Nat} {c c' : Cell D T} (hx : x ∈ A) (hx1 : x ∈ A1) (hc : m x = some c) (hc' : m' x = some c') (hrc : c'.rc = c.rc)
    (hp : (∃ r ∈ L1, r.ptr = x) ∨ ∃ p ∈ A1, p ∉ B ∧ x ∈ outsAt S m' p) : (∃ r ∈ L, r.ptr = x) ∨ ∃ b ∈ Ba, x ∈ outsAt S m b := by
  have hnd : (Ba ++ B).Nodup := hA.nodup_iff.mp (List.nodup_append.mp h.nodup).1
  obtain ⟨R, hR⟩ : ∃ R, A1.Perm (B ++ R) := by
    obtain ⟨l, hl, hs⟩ := List.subperm_of_subset (List.nodup_append.mp hnd).2.1 fun x hx => (hB x hx).1
    obtain ⟨R, hR⟩ := hs.exists_perm_append
    exact ⟨R, hR.trans (hl.append_right R)⟩
  have e1 := (h.rc hg x hx c hc).1
  have e2 := (h1.rc hg x hx1 c' hc').1
  rw [total_perm hA (List.Perm.refl _), total_append] at e1
  rw [total_perm (hR.trans List.perm_append_comm) (List.Perm.refl _), total_append] at e2
  have t1 : ∀ (mm : Mem D T) (Y : List Nat), total S mm (Y ++ B) X x = (Y.flatMap (outsAt S mm)).count x + total S mm B X x := by
    intro mm Y
    unfold total Mm.allRefs
    rw [List.flatMap_append, List.count_append, List.count_append, List.count_append]
    omega
  rw [t1] at e1 e2
  rw [total_congr fun a ha => (hB a ha).2] at e2
  have hpos : 0 < (L1.map Ref.ptr).count x + (R.flatMap (outsAt S m')).count x := by
    rcases hp with ⟨r, hr, rfl⟩ | ⟨p, hp1, hp2, hp3⟩
    · have := List.count_pos_iff.mpr (List.mem_map_of_mem (f := Ref.ptr) hr)
      omega
    · have hpR : p ∈ R := (List.mem_append.mp (hR.mem_iff.mp hp1)).resolve_left hp2
      have := List.count_pos_iff.mpr (List.mem_flatMap.mpr ⟨p, hpR, hp3⟩)
      omega
  by_cases hL : 0 < (L.map Ref.ptr).count x
  · obtain ⟨r, hr, hrx⟩ := List.mem_map.mp (List.count_pos_iff.mp hL)
    exact .inl ⟨r, hr, hrx⟩
  · right
    have : 0 < (Ba.flatMap (outsAt S m)).count x := by omega
    obtain ⟨b, hb, hbx⟩ := List.mem_flatMap.mp (List.count_pos_iff.mp this)
    exact ⟨b, hb, hbx⟩

/-- a thread counts what it has in another way -/
theorem Recent.moved {A : Agents V} {K : List Nat} (hg : S.gc = false) (hi : TInv S m (O ++ O') (L ++ (G ++ L'))) (hi1 : TInv S m (O1 ++ O') (L1 ++ (G ++ L'))) (hm : Moved S G no no O L m O1 L1 m)
    (hr : Recent S G m (O ++ O') k h fun O2 L2 K2 => (O2 = O ∧ L2 = L ∧ K2 = K) ∨ A O2 L2 K2) : Recent S G m (O1 ++ O') k h fun O2 L2 K2 => (O2 = O1 ∧ L2 = L1 ∧ K2 = K) ∨ A O2 L2 K2 := by
  obtain ⟨⟨B, J, g, hJ, hG⟩, -⟩ := hi
  obtain ⟨⟨B1, J1, g1, hJ1, hG1⟩, -⟩ := hi1
  rw [hJ hg, List.append_nil] at hG
  rw [hJ1 hg, List.append_nil] at hG1
  have hO1 : ∀ x ∈ O1, x ∈ O := fun x hx => (hm.1 x hx).elim id False.elim
  have hBB : ∀ x ∈ B, x ∈ B1 := by
    intro x hx
    refine (List.mem_append.mp ((hG1.alloc x).mp ((hG.alloc x).mpr (List.mem_append_left _ hx)))).resolve_right fun h1 => ?_
    rcases List.mem_append.mp h1 with h1 | h1
    · exact hG.notin (List.mem_append_left _ (hO1 x h1)) hx
    · exact hG.notin (List.mem_append_right _ h1) hx
  have key : ∀ x ∈ B1, ((∃ r ∈ L1, r.ptr = x) ∨ ∃ p ∈ B1, p ∉ B ∧ x ∈ outsAt S m p) → ∃ e ∈ K, Fresh e (h x) := by
    intro x hx hp
    refine hr.mine O L K (.inl ⟨rfl, rfl, rfl⟩) x ?_
    by_cases hxO : x ∈ O
    · exact .inl hxO
    right
    have hxB : x ∈ B := by
      refine (List.mem_append.mp ((hG.alloc x).mp ((hG1.alloc x).mpr (List.mem_append_left _ hx)))).resolve_right fun h1 => ?_
      rcases List.mem_append.mp h1 with h1 | h1
      · exact hxO h1
      · exact hG1.notin (List.mem_append_right _ h1) hx
    obtain ⟨c, hc⟩ := hG.live hxB
    rcases refs_back (Ba := []) hg hG hG1 (List.Perm.refl _) (fun x hx => ⟨hBB x hx, rfl⟩) hxB hx hc hc rfl hp with h1 | ⟨b, hb, -⟩
    · exact h1
    · cases hb
  have hmine : ∀ {x}, Mine S G O L m x → Mine S G O1 L1 m x := fun hx => (hm.2.1 _ hx).elim id False.elim
  refine ⟨hr.head, ?_, ?_⟩
  · rintro O2 L2 K2 (⟨rfl, rfl, rfl⟩ | hA) x hx
    · rcases hx with hx | hx
      · exact hr.mine O L K2 (.inl ⟨rfl, rfl, rfl⟩) x (.inl (hO1 x hx))
      · obtain ⟨r, hr', rfl⟩ := hx
        exact key _ (hG1.mem_of_ref (List.mem_append_left _ hr')) (.inl ⟨r, hr', rfl⟩)
    · exact hr.mine O2 L2 K2 (.inr hA) x hx
  · intro p c hc hp x hx
    have hp1 : p ∈ B1 := (List.mem_append.mp ((hG1.alloc p).mp (by rw [hc]; simp))).resolve_right hp
    by_cases hpO : p ∈ O ++ O'
    · rcases List.mem_append.mp hpO with hpO | hpO
      · have hpB : p ∉ B := hG.notin (List.mem_append_left _ hpO)
        obtain ⟨e, he, hf⟩ := key x (hG1.mem_of_out hp1 hc hx) (.inr ⟨p, hp1, hpB, by unfold outsAt; rw [hc]; exact hx⟩)
        exact ⟨e, hf, .inl ⟨O1, L1, K, .inl ⟨rfl, rfl, rfl⟩, hmine (.inl hpO), he⟩⟩
      · exact (hp (List.mem_append_right _ hpO)).elim
    · obtain ⟨e, he, hl⟩ := hr.kids p c hc hpO x hx
      refine ⟨e, he, hl.mono ?_ ?_⟩
      · intro x hx
        exact (List.mem_append.mp hx).elim (fun h => List.mem_append_left _ (hO1 x h)) (List.mem_append_right _)
      · rintro O2 L2 K2 (⟨rfl, rfl, rfl⟩ | hA) x hx
        · exact ⟨O1, L1, K2, .inl ⟨rfl, rfl, rfl⟩, hmine hx, fun _ h => h⟩
        · exact ⟨O2, L2, K2, .inr hA, hx, fun _ h => h⟩

section step
variable {A : Agents V} {n : Nat} {K : List Nat}

/-- links after a step -/
theorem Link.step (hg : S.gc = false) (hi : TInv S m (O ++ O') (L ++ (G ++ L'))) (hn : o.needs S G O L m a) (he : o.effect m m' a)
    (hk : Kept S O' (G ++ L') m m') (hm : Moved S G (o.gets a) (o.loses S m a) O L m O1 L1 m')
    (hA : ∀ O2 L2 K2, A O2 L2 K2 → (∀ x ∈ O2, x ∈ O') ∧ ∀ r ∈ L2, r ∈ L') {e x : Nat} (hxf : o = .free → x ≠ a)
    (h : Link S G m (O ++ O') k (fun O2 L2 K2 => (O2 = O ∧ L2 = L ∧ K2 = K) ∨ A O2 L2 K2) e x) :
    Link S G m' (O1 ++ O') (k.after o a n K) (fun O2 L2 K2 => (O2 = O1 ∧ L2 = L1 ∧ K2 = o.know a n K k) ∨ A O2 L2 K2) e x := by
  have hsub : ∀ {O2 L2 K2}, A O2 L2 K2 → ∀ r ∈ L2 ++ G, r ∈ G ++ L' := fun h2 r hr => (List.mem_append.mp hr).elim (fun h => List.mem_append_right _ ((hA _ _ _ h2).2 r h)) (List.mem_append_left _)
  have hfwd : ∀ {O2 L2 K2 x}, A O2 L2 K2 → Mine S G O2 L2 m x → Mine S G O2 L2 m' x := by
    intro O2 L2 K2 x h2 hx
    exact hx.imp_right fun hx => (hk.mono (hsub h2) fun _ h => h).reach hx
  have hK : ∀ e ∈ K, e ∈ o.know a n K k := fun e he => List.mem_cons_of_mem _ (List.mem_append_left _ he)
  rcases h with ⟨O2, L2, K2, ⟨rfl, rfl, rfl⟩ | hA2, h1, h2⟩ | ⟨q, hq1, hq2, hq3, hq4⟩
  · rcases hm.2.1 x h1 with h3 | ⟨rfl, h3⟩ | ⟨h3, h4⟩
    · exact .inl ⟨O1, L1, _, .inl ⟨rfl, rfl, rfl⟩, h3, hK _ h2⟩
    · right
      have hr : a ∉ O2 ++ O' := hi.1.reach_notin (Reach.mono (L := L2 ++ G) (fun r hr => by rw [← List.append_assoc]; exact List.mem_append_left _ hr) hn)
      have ha0 : m a ≠ none := by
        obtain ⟨c, _, hc, _⟩ := he
        rw [hc]; simp
      refine ⟨a, ?_, ?_, effect_from hg hi.1 he hn ha0 hr h3, ?_⟩
      · obtain ⟨c, _, _, hc⟩ := he
        rw [hc, upd_self]; simp
      · intro hx1
        rcases List.mem_append.mp hx1 with hx1 | hx1
        · rcases hm.1 a hx1 with h2 | ⟨h2, -⟩
          · exact hr (List.mem_append_left _ h2)
          · simp at h2
        · exact hr (List.mem_append_right _ hx1)
      · unfold Clk.after
        simp only [upd_self]
        exact List.mem_cons_of_mem _ (List.mem_append_left _ h2)
    · exact (hxf h3 h4).elim
  · exact .inl ⟨O2, L2, K2, .inr hA2, hfwd hA2 h1, h2⟩
  · by_cases hqa : q ∈ O1
    · rcases hm.1 q hqa with h1 | ⟨h1, rfl⟩
      · exact (hq2 (List.mem_append_left _ h1)).elim
      · have hac : o.acquires = true := by
          rcases h1 with rfl | rfl | rfl
          · rfl
          · rfl
          · exact (hq1 hn).elim
        have hmx : Mine S G O L m x := by
          rcases h1 with rfl | rfl | rfl
          · exact .inr (Reach.from hn hq3)
          · exact .inr (Reach.from (reach_ptr hn) hq3)
          · exact (hq1 hn).elim
        rcases hm.2.1 x hmx with h3 | ⟨h3, -⟩ | ⟨h3, -⟩
        · refine .inl ⟨O1, L1, _, .inl ⟨rfl, rfl, rfl⟩, h3, ?_⟩
          unfold Op.know
          rw [if_pos hac]
          exact List.mem_cons_of_mem _ (List.mem_append_right _ hq4)
        · subst h3; simp at h1
        · subst h3; simp at h1
    · right
      have hne : q = a → o ≠ .alloc ∧ o ≠ .free := by
        rintro rfl
        refine ⟨?_, ?_⟩
        · rintro rfl; exact hq1 hn
        · rintro rfl; exact hq2 (List.mem_append_left _ hn)
      refine ⟨q, ?_, ?_, effect_from hg hi.1 he hn hq1 hq2 hq3, rel_after hq4 hne⟩
      · cases hc : m q with
        | none => exact (hq1 hc).elim
        | some c =>
          obtain ⟨c', hc', -⟩ := effect_same he hn (fun h => hq2 (List.mem_append_left _ h)) hc
          rw [hc']; simp
      · intro hx1
        rcases List.mem_append.mp hx1 with hx1 | hx1
        · exact hqa hx1
        · exact hq2 (List.mem_append_right _ hx1)

/-- what a thread opened it knows everything about -/
theorem Link.opened (hg : S.gc = false) (hi : TInv S m (O ++ O') (L ++ (G ++ L'))) (hi' : TInv S m' (O1 ++ O') (L1 ++ (G ++ L'))) (hn : o.needs S G O L m a) (he : o.effect m m' a)
    (hk : Kept S O' (G ++ L') m m') (hm : Moved S G (o.gets a) (o.loses S m a) O L m O1 L1 m')
    (hA : ∀ O2 L2 K2, A O2 L2 K2 → (∀ x ∈ O2, x ∈ O') ∧ ∀ r ∈ L2, r ∈ L') {e x : Nat} (ho : o ≠ .free) (hx : x ∈ O1)
    (h : Link S G m (O ++ O') k (fun O2 L2 K2 => (O2 = O ∧ L2 = L ∧ K2 = K) ∨ A O2 L2 K2) e x) : e ∈ o.know a n K k := by
  rcases Link.step (n := n) hg hi hn he hk hm hA (fun h => (ho h).elim) h with ⟨O2, L2, K2, ⟨rfl, rfl, rfl⟩ | hA2, h1, h2⟩ | ⟨q, hq1, hq2, hq3, hq4⟩
  · exact h2
  · exfalso
    rcases h1 with h1 | h1
    · exact hi'.1.notin_open hx ((hA _ _ _ hA2).1 x h1)
    · refine hi'.1.reach_notin (h1.mono fun r hr => List.mem_append_right _ ?_) (List.mem_append_left _ hx)
      exact (List.mem_append.mp hr).elim (fun h => List.mem_append_right _ ((hA _ _ _ hA2).2 r h)) (List.mem_append_left _)
  · exact ((closed_from hg hi'.1 hq1 hq2 hq3).2 (List.mem_append_left _ hx)).elim

/-- counts change -/
def Op.bump : Op → Bool
  | .inc => true
  | .dec _ => true
  | .alloc => true
  | _ => false

theorem hist_keep {x : Nat} (hx : x = a → o.bump = false ∧ o ≠ .free) : histAfter h k o a n K m' x = h x := by
  unfold histAfter
  by_cases hxa : x = a
  · subst hxa
    rw [upd_self]
    obtain ⟨h1, h2⟩ := hx rfl
    cases o <;> simp_all [Op.bump]
  · rw [upd_ne hxa]

theorem hist_new {c' : Cell D T} (hb : o.bump = true) (hc : m' a = some c') : ∃ H, histAfter h k o a n K m' a = ⟨n, c'.rc, (k.after o a n K).rel a⟩ :: H ∧ (o ≠ .alloc → H = h a) := by
  unfold histAfter
  rw [upd_self]
  cases o with
  | inc => exact ⟨h a, by simp [hc], fun _ => rfl⟩
  | dec b => exact ⟨h a, by simp [hc], fun _ => rfl⟩
  | alloc => exact ⟨[], by simp [hc], fun h => (h rfl).elim⟩
  | _ => cases hb

/-- two references -/
theorem two_refs {B Q : List Nat} {g : Nat → V} {X : List (Ref V)} {c : Cell D T} (hg : S.gc = false) (hG : Good S m B Q g (L ++ X)) (ha : a ∈ B) (hc : m a = some c) (hx : ∃ r ∈ X, r.ptr = a) (hl : Reach S m L a) : 2 ≤ c.rc := by
  rw [(hG.rc hg a ha c hc).1, total_append]
  obtain ⟨r, hr, rfl⟩ := hx
  obtain ⟨r0, hr0, hf⟩ := hl
  have h1 : 0 < (X.map Ref.ptr).count r.ptr := List.count_pos_iff.mpr (List.mem_map_of_mem hr)
  have h2 : total S m B X r.ptr = (X.map Ref.ptr).count r.ptr + (B.flatMap (outsAt S m)).count r.ptr := by unfold total Mm.allRefs; rw [List.count_append]
  rw [h2]
  generalize hq : r.ptr = q at hf h1 ⊢
  cases hf with
  | here =>
    have : 0 < (L.map Ref.ptr).count r0.ptr := List.count_pos_iff.mpr (List.mem_map_of_mem hr0)
    omega
  | @next p0 _ c0 hf hc0 ho =>
    have hp0 : p0 ∈ B := hG.reach ⟨r0, List.mem_append_left _ hr0, hf⟩
    have : 0 < (B.flatMap (outsAt S m)).count q := List.count_pos_iff.mpr (List.mem_flatMap.mpr ⟨p0, hp0, by unfold outsAt; rw [hc0]; exact ho⟩)
    omega

/-- a node with a single reference, that is in another node -/
theorem one_ref {B Q : List Nat} {g : Nat → V} {X : List (Ref V)} {c cp : Cell D T} {p : Nat} (hg : S.gc = false) (hG : Good S m B Q g (L ++ X)) (ha : a ∈ B) (hc : m a = some c) (hp : p ∈ B) (hcp : m p = some cp) (ho : a ∈ S.outs cp.data)
    (hl : Reach S m L a) (h2 : ¬ 2 ≤ c.rc) : Reach S m L p := by
  rw [(hG.rc hg a ha c hc).1] at h2
  have hop : a ∈ outsAt S m p := by unfold outsAt; rw [hcp]; exact ho
  obtain ⟨r0, hr0, hf⟩ := hl
  cases hf with
  | here =>
    exfalso
    have h3 : 0 < (L.map Ref.ptr).count r0.ptr := List.count_pos_iff.mpr (List.mem_map_of_mem hr0)
    have h4 : 0 < (B.flatMap (outsAt S m)).count r0.ptr := List.count_pos_iff.mpr (List.mem_flatMap.mpr ⟨p, hp, hop⟩)
    unfold total Mm.allRefs at h2
    rw [List.map_append, List.count_append, List.count_append] at h2
    omega
  | @next p0 _ c0 hf hc0 ho0 =>
    have hp0 : p0 ∈ B := hG.reach ⟨r0, List.mem_append_left _ hr0, hf⟩
    by_cases hpp : p0 = p
    · subst hpp; exact ⟨r0, hr0, hf⟩
    · exfalso
      have hB1 : B.Perm (p :: B.erase p) := List.perm_cons_erase hp
      have hB2 : (B.erase p).Perm (p0 :: (B.erase p).erase p0) := List.perm_cons_erase ((List.mem_erase_of_ne hpp).mpr hp0)
      rw [total_perm (hB1.trans (hB2.cons p)) (List.Perm.refl _), total_consA, total_consA] at h2
      have h3 := List.count_pos_iff.mpr hop
      have h4 : 0 < (outsAt S m p0).count a := List.count_pos_iff.mpr (by unfold outsAt; rw [hc0]; exact ho0)
      omega

/-- what a step does to a cell -/
theorem step_other {β : Type} {room : D → Nat} {p p' : Prog D T β} (hs : Prog.Step room m p o a m' p') {x : Nat} (hx : x ≠ a) : m' x = m x := by
  cases hs <;> first | rfl | exact upd_ne hx

theorem step_rc {β : Type} {room : D → Nat} {p p' : Prog D T β} {c' : Cell D T} (hs : Prog.Step room m p o a m' p') (hc' : m' a = some c') :
    (o = .alloc ∧ m a = none) ∨ ∃ c, m a = some c ∧ (o.bump = false → c'.rc = c.rc) ∧ (∀ b, o = .dec b → c.rc = c'.rc + 1) := by
  cases hs with
  | read hc => rw [hc] at hc'; cases hc'; exact .inr ⟨_, hc, fun _ => rfl, by simp⟩
  | unique hc hb => rw [hc] at hc'; cases hc'; exact .inr ⟨_, hc, fun _ => rfl, by simp⟩
  | write hc hf => rw [upd_self] at hc'; cases hc'; exact .inr ⟨_, hc, fun _ => rfl, by simp⟩
  | inc hc => exact .inr ⟨_, hc, by simp [Op.bump], by simp⟩
  | dec hc h0 => rw [upd_self] at hc'; cases hc'; exact .inr ⟨_, hc, by simp [Op.bump], fun _ _ => (Nat.sub_add_cancel h0).symm⟩
  | alloc hp h0 => exact .inl ⟨rfl, hp⟩
  | free hc => rw [upd_self] at hc'; cases hc'

theorem Recent.step {β : Type} {room : D → Nat} {p p' : Prog D T β} (hg : S.gc = false) (hs : Prog.Step room m p o a m' p') (hi : TInv S m (O ++ O') (L ++ (G ++ L'))) (hn : o.needs S G O L m a) (he : o.effect m m' a)
    (hi' : TInv S m' (O1 ++ O') (L1 ++ (G ++ L'))) (hk : Kept S O' (G ++ L') m m') (hm : Moved S G (o.gets a) (o.loses S m a) O L m O1 L1 m')
    (hA : ∀ O2 L2 K2, A O2 L2 K2 → (∀ x ∈ O2, x ∈ O') ∧ ∀ r ∈ L2, r ∈ L')
    (hr : Recent S G m (O ++ O') k h fun O2 L2 K2 => (O2 = O ∧ L2 = L ∧ K2 = K) ∨ A O2 L2 K2) :
    Recent S G m' (O1 ++ O') (k.after o a n K) (histAfter h k o a n K m') fun O2 L2 K2 => (O2 = O1 ∧ L2 = L1 ∧ K2 = o.know a n K k) ∨ A O2 L2 K2 := by
  have hi0 := hi
  have hi1 := hi'
  obtain ⟨⟨B, J, g, hJ, hG⟩, -⟩ := hi0
  obtain ⟨⟨B1, J1, g1, hJ1, hG1⟩, -⟩ := hi1
  rw [hJ hg, List.append_nil] at hG
  rw [hJ1 hg, List.append_nil] at hG1
  have hK : ∀ e ∈ K, e ∈ o.know a n K k := fun e he => List.mem_cons_of_mem _ (List.mem_append_left _ he)
  have hmine : o ≠ .alloc → Mine S G O L m a := by
    intro ho
    cases o with
    | read => exact hn
    | write => exact .inl hn
    | inc => exact hn
    | dec => exact .inr hn
    | unique => exact .inr (reach_ptr hn)
    | alloc => exact (ho rfl).elim
    | free => exact .inl hn
  -- allocated before
  have hwas : ∀ x, m' x ≠ none → (x = a → o ≠ .alloc) → m x ≠ none := by
    intro x hx hxa
    by_cases h1 : x = a
    · subst h1
      cases hc : m' x with
      | none => exact (hx hc).elim
      | some c' =>
        rcases step_rc hs hc with ⟨h2, -⟩ | ⟨c, h2, -⟩
        · exact (hxa rfl h2).elim
        · rw [h2]; simp
    · rw [step_other hs h1] at hx; exact hx
  have hnf : o = .free → m' a = none := by rintro rfl; rw [show m' = upd m a none from he]; exact upd_self
  -- nodes that are opened, and the other ones
  obtain ⟨Ba, Br, hperm, hBr, hBa⟩ : ∃ Ba Br : List Nat, B.Perm (Ba ++ Br) ∧ (∀ x ∈ Br, x ∈ B ∧ (a ∈ O1 → x ≠ a)) ∧ ∀ b ∈ Ba, b = a ∧ a ∈ O1 ∧ a ∈ B := by
    by_cases hop : a ∈ O1 ∧ a ∈ B
    · have hnd : B.Nodup := (List.nodup_append.mp hG.nodup).1
      refine ⟨[a], B.erase a, List.perm_cons_erase hop.2, fun x hx => ⟨List.mem_of_mem_erase hx, fun _ => ?_⟩, fun b hb => ⟨List.mem_singleton.mp hb, hop⟩⟩
      rintro rfl
      exact List.Nodup.not_mem_erase hnd hx
    · refine ⟨[], B, List.Perm.refl _, fun x hx => ⟨hx, fun h1 => ?_⟩, fun b hb => by cases hb⟩
      rintro rfl
      exact hop ⟨h1, hx⟩
  have hB : ∀ x ∈ Br, x ∈ B1 ∧ outsAt S m' x = outsAt S m x := by
    intro x hx
    obtain ⟨hxB, hxa⟩ := hBr x hx
    obtain ⟨c, hc⟩ := hG.live hxB
    obtain ⟨c', hc', hd⟩ := effect_same he hn (fun h1 => hG.notin (List.mem_append_left _ h1) hxB) hc
    refine ⟨?_, by unfold outsAt; rw [hc, hc']; simp only [hd]⟩
    refine (List.mem_append.mp ((hG1.alloc x).mp (by rw [hc']; simp))).resolve_right fun h1 => ?_
    rcases List.mem_append.mp h1 with h1 | h1
    · rcases hm.1 x h1 with h2 | ⟨-, h2⟩
      · exact hG.notin (List.mem_append_left _ h2) hxB
      · subst h2; exact hxa h1 rfl
    · exact hG.notin (List.mem_append_right _ h1) hxB
  -- what the thread has itself
  have key : ∀ x, (x ∈ O1 ∨ (x ∈ B1 ∧ ((∃ r ∈ L1, r.ptr = x) ∨ ∃ p ∈ B1, p ∉ Br ∧ x ∈ outsAt S m' p))) → ∃ e ∈ o.know a n K k, Fresh e (histAfter h k o a n K m' x) := by
    intro x hx
    have hx' : m' x ≠ none := (hG1.alloc x).mpr (by rcases hx with hx | hx; exacts [List.mem_append_right _ (List.mem_append_left _ hx), List.mem_append_left _ hx.1])
    cases hc' : m' x with
    | none => exact (hx' hc').elim
    | some c' =>
    by_cases hxb : x = a ∧ o.bump = true
    · obtain ⟨rfl, hb⟩ := hxb
      obtain ⟨H, hH, -⟩ := hist_new (h := h) (k := k) (n := n) (K := K) hb hc'
      exact ⟨n, List.mem_cons_self, by rw [hH]; exact Fresh.head⟩
    · have hkeep : histAfter h k o a n K m' x = h x := hist_keep fun h1 => ⟨by
        cases hb : o.bump
        · rfl
        · exact (hxb ⟨h1, hb⟩).elim, fun h2 => by subst h1; exact hx' (hnf h2)⟩
      have hal : x = a → o ≠ .alloc := by rintro h1 rfl; exact hxb ⟨h1, rfl⟩
      rw [hkeep]
      have hdir : (x ∈ O ∨ ∃ r ∈ L, r.ptr = x) → ∃ e ∈ o.know a n K k, Fresh e (h x) := by
        intro h1
        obtain ⟨e, he, hf⟩ := hr.mine O L K (.inl ⟨rfl, rfl, rfl⟩) x h1
        exact ⟨e, hK e he, hf⟩
      rcases hx with hx | ⟨hx, hp⟩
      · rcases hm.1 x hx with h1 | ⟨h1, rfl⟩
        · exact hdir (.inl h1)
        · rcases h1 with rfl | rfl | rfl
          · exact (hxb ⟨rfl, rfl⟩).elim
          · exact hdir (.inr hn)
          · exact (hxb ⟨rfl, rfl⟩).elim
      · by_cases hxO : x ∈ O
        · exact hdir (.inl hxO)
        have hx0 := hwas x hx' hal
        have hxB : x ∈ B := by
          refine (List.mem_append.mp ((hG.alloc x).mp hx0)).resolve_right fun h1 => ?_
          rcases List.mem_append.mp h1 with h1 | h1
          · exact hxO h1
          · exact hG1.notin (List.mem_append_right _ h1) hx
        obtain ⟨c, hc⟩ := hG.live hxB
        have hrc : c'.rc = c.rc := by
          by_cases hxa : x = a
          · subst hxa
            rcases step_rc hs hc' with ⟨h1, -⟩ | ⟨c1, h1, h2, -⟩
            · exact (hal rfl h1).elim
            · rw [hc] at h1; cases h1
              refine h2 ?_
              cases hb : o.bump
              · rfl
              · exact (hxb ⟨rfl, hb⟩).elim
          · rw [step_other hs hxa, hc] at hc'; cases hc'; rfl
        rcases refs_back hg hG hG1 hperm hB hxB hx hc hc' hrc hp with h1 | ⟨b, hb, hbx⟩
        · exact hdir (.inr h1)
        · obtain ⟨rfl, hb1, hb2⟩ := hBa b hb
          obtain ⟨cb, hcb⟩ := hG.live hb2
          have hbO : b ∉ O ++ O' := fun h1 => hG.notin h1 hb2
          obtain ⟨e, hf, hl⟩ := hr.kids b cb hcb hbO x (by unfold outsAt at hbx; rw [hcb] at hbx; exact hbx)
          refine ⟨e, Link.opened hg hi hi' hn he hk hm hA ?_ hb1 hl, hf⟩
          rintro rfl
          exact hbO (List.mem_append_left _ hn)
  -- values that are still recent
  have hcons : ∀ {e : Nat} {c : Cell D T}, o ≠ .alloc → o.bump = true → m' a ≠ none → m a = some c → 2 ≤ c.rc → Fresh e (h a) → Fresh e (histAfter h k o a n K m' a) := by
    intro e c h1 h2 h3 hc h4 hf
    cases hc' : m' a with
    | none => exact (h3 hc').elim
    | some c' =>
      obtain ⟨H, hH, hH2⟩ := hist_new (h := h) (k := k) (n := n) (K := K) h2 hc'
      obtain ⟨y0, H0, h5, h6, -⟩ := hr.head a c hc
      rw [hH, hH2 h1, h5]
      rw [h5] at hf
      exact hf.cons (by rw [h6]; exact h4)
  have hdec2 : ∀ {c : Cell D T} {b : Bool}, o = .dec b → a ∈ B1 → m a = some c → 2 ≤ c.rc := by
    intro c b hb ha hc
    obtain ⟨c', hc'⟩ := hG1.live ha
    rcases step_rc hs hc' with ⟨h1, -⟩ | ⟨c1, h1, -, h2⟩
    · rw [hb] at h1; cases h1
    · rw [hc] at h1; cases h1
      have := (hG1.rc hg a ha c' hc').2
      have := h2 b hb
      omega
  refine ⟨?_, ?_, ?_⟩
  · intro x c' hc'
    by_cases hxa : x = a
    · subst hxa
      cases hb : o.bump with
      | true =>
        obtain ⟨H, hH, -⟩ := hist_new (h := h) (k := k) (n := n) (K := K) hb hc'
        exact ⟨_, H, hH, rfl, rfl⟩
      | false =>
        rcases step_rc hs hc' with ⟨rfl, -⟩ | ⟨c, hc, h2, -⟩
        · cases hb
        · obtain ⟨y, H, h3, h4, h5⟩ := hr.head x c hc
          refine ⟨y, H, ?_, by rw [h2 hb]; exact h4, ?_⟩
          · rw [hist_keep fun _ => ⟨hb, fun h6 => by rw [hnf h6] at hc'; cases hc'⟩]; exact h3
          · rw [h5]
            unfold Clk.after
            simp only [upd_self]
            cases o with
            | inc => cases hb
            | dec => cases hb
            | alloc => cases hb
            | free => rw [hnf rfl] at hc'; cases hc'
            | read => rfl
            | write => rfl
            | unique => rfl
    · rw [step_other hs hxa] at hc'
      obtain ⟨y, H, h3, h4, h5⟩ := hr.head x c' hc'
      refine ⟨y, H, by rw [hist_keep fun h1 => (hxa h1).elim]; exact h3, h4, ?_⟩
      rw [h5]
      unfold Clk.after
      simp only [upd_ne hxa]
  · rintro O2 L2 K2 (⟨rfl, rfl, rfl⟩ | hA2) x hx
    · refine key x ?_
      rcases hx with hx | ⟨r, hr', rfl⟩
      · exact .inl hx
      · exact .inr ⟨hG1.mem_of_ref (List.mem_append_left _ hr'), .inl ⟨r, hr', rfl⟩⟩
    · obtain ⟨e, he2, hf⟩ := hr.mine O2 L2 K2 (.inr hA2) x hx
      refine ⟨e, he2, ?_⟩
      by_cases hch : x = a → o.bump = false ∧ o ≠ .free
      · rw [hist_keep hch]; exact hf
      · obtain ⟨hxa, hch2⟩ := Classical.not_imp.mp hch
        subst hxa
        -- others have it too
        have hoth : x ∈ O' ∨ ∃ r ∈ L', r.ptr = x := hx.imp ((hA _ _ _ hA2).1 x) fun ⟨r, h1, h2⟩ => ⟨r, (hA _ _ _ hA2).2 r h1, h2⟩
        have hnO : x ∉ O := by
          intro h1
          rcases hoth with h2 | ⟨r, h2, h3⟩
          · exact hi.1.notin_open h1 h2
          · exact hi.1.reach_notin ⟨r, List.mem_append_right _ (List.mem_append_right _ h2), by rw [h3]; exact .here⟩ (List.mem_append_left _ h1)
        have hal0 : m x ≠ none := by
          rcases hoth with h2 | ⟨r, h2, h3⟩
          · exact (hG.alloc x).mpr (List.mem_append_right _ (List.mem_append_right _ h2))
          · exact (hG.alloc x).mpr (List.mem_append_left _ (h3 ▸ hG.mem_of_ref (List.mem_append_right _ (List.mem_append_right _ h2))))
        have hal : o ≠ .alloc := by rintro rfl; exact hal0 hn
        have hfr : o ≠ .free := by rintro rfl; exact hnO hn
        have hb : o.bump = true := by
          cases hb : o.bump
          · exact (hch2 ⟨hb, hfr⟩).elim
          · rfl
        have hrea : Reach S m (L ++ G) x := (hmine hal).resolve_left hnO
        have hotr : ∃ r ∈ L', r.ptr = x := by
          refine hoth.resolve_left fun h2 => ?_
          exact hi.1.reach_notin (hrea.mono fun r hr => by rw [← List.append_assoc]; exact List.mem_append_left _ hr) (List.mem_append_right _ h2)
        have hxB : x ∈ B := by
          obtain ⟨r, h2, rfl⟩ := hotr
          exact hG.mem_of_ref (List.mem_append_right _ (List.mem_append_right _ h2))
        have hxB1 : x ∈ B1 := by
          obtain ⟨r, h2, rfl⟩ := hotr
          exact hG1.mem_of_ref (List.mem_append_right _ (List.mem_append_right _ h2))
        obtain ⟨c, hc⟩ := hG.live hxB
        refine hcons hal hb ((hG1.alloc x).mpr (List.mem_append_left _ hxB1)) hc ?_ hf
        cases o with
        | inc =>
          rw [← List.append_assoc] at hG
          exact two_refs hg hG hxB hc hotr hrea
        | dec b => exact hdec2 rfl hxB1 hc
        | alloc => exact (hal rfl).elim
        | _ => cases hb
  · intro q c' hc' hq x hx
    have hq1 : q ∈ B1 := (List.mem_append.mp ((hG1.alloc q).mp (by rw [hc']; simp))).resolve_right hq
    have hx1 : x ∈ B1 := hG1.mem_of_out hq1 hc' hx
    by_cases hqB : q ∈ Br
    · have hqB0 := (hBr q hqB).1
      obtain ⟨c, hc⟩ := hG.live hqB0
      have hqO : q ∉ O ++ O' := fun h1 => hG.notin h1 hqB0
      have hx0 : x ∈ S.outs c.data := by
        obtain ⟨c2, hc2, hd⟩ := effect_same he hn (fun h1 => hqO (List.mem_append_left _ h1)) hc
        rw [hc'] at hc2; cases hc2
        rw [← hd]; exact hx
      have hxB : x ∈ B := hG.mem_of_out hqB0 hc hx0
      obtain ⟨e, hf, hl⟩ := hr.kids q c hc hqO x hx0
      have hl' := Link.step (n := n) hg hi hn he hk hm hA (fun h1 h2 => by subst h1 h2; exact hqO (List.mem_append_left _ hn)) hl
      by_cases hch : x = a → o.bump = false ∧ o ≠ .free
      · exact ⟨e, by rw [hist_keep hch]; exact hf, hl'⟩
      · obtain ⟨hxa, hch2⟩ := Classical.not_imp.mp hch
        subst hxa
        have hnO : x ∉ O := fun h1 => hG.notin (List.mem_append_left _ h1) hxB
        have hal : o ≠ .alloc := by rintro rfl; exact (hG.alloc x).mpr (List.mem_append_left _ hxB) hn
        have hfr : o ≠ .free := by rintro rfl; exact hnO hn
        have hb : o.bump = true := by
          cases hb : o.bump
          · exact (hch2 ⟨hb, hfr⟩).elim
          · rfl
        obtain ⟨cx, hcx⟩ := hG.live hxB
        have hax : m' x ≠ none := (hG1.alloc x).mpr (List.mem_append_left _ hx1)
        have hrea : Reach S m (L ++ G) x := (hmine hal).resolve_left hnO
        cases o with
        | inc =>
          by_cases h2 : 2 ≤ cx.rc
          · exact ⟨e, hcons hal hb hax hcx h2 hf, hl'⟩
          · rw [← List.append_assoc] at hG
            have hrq := one_ref hg hG hxB hcx hqB0 hc hx0 hrea h2
            cases hcx' : m' x with
            | none => exact (hax hcx').elim
            | some cx' =>
              obtain ⟨H, hH, -⟩ := hist_new (h := h) (k := k) (n := n) (K := K) hb hcx'
              refine ⟨n, by rw [hH]; exact Fresh.head, .inl ⟨O1, L1, _, .inl ⟨rfl, rfl, rfl⟩, ?_, List.mem_cons_self⟩⟩
              rcases hm.2.1 q (.inr hrq) with h3 | ⟨h3, -⟩ | ⟨h3, -⟩
              · exact h3
              · cases h3
              · cases h3
        | dec b => exact ⟨e, hcons hal hb hax hcx (hdec2 rfl hx1 hcx) hf, hl'⟩
        | alloc => exact (hal rfl).elim
        | _ => cases hb
    · obtain ⟨e, he2, hf⟩ := key x (.inr ⟨hx1, .inr ⟨q, hq1, hqB, by unfold outsAt; rw [hc']; exact hx⟩⟩)
      refine ⟨e, hf, .inl ⟨O1, L1, _, .inl ⟨rfl, rfl, rfl⟩, ?_, he2⟩⟩
      by_cases hal : q = a ∧ o = .alloc
      · exact hm.2.2.2 q ⟨.inr (.inr hal.2), hal.1⟩
      · have hq0 := hwas q (by rw [hc']; simp) fun h1 h2 => hal ⟨h1, h2⟩
        have hqO : q ∈ O := by
          rcases List.mem_append.mp ((hG.alloc q).mp hq0) with h1 | h1
          · exfalso
            rcases List.mem_append.mp (hperm.mem_iff.mp h1) with h2 | h2
            · obtain ⟨rfl, h3, -⟩ := hBa q h2
              exact hq (List.mem_append_left _ h3)
            · exact hqB h2
          · exact (List.mem_append.mp h1).resolve_right fun h2 => hq (List.mem_append_right _ h2)
        rcases hm.2.1 q (.inl hqO) with h3 | ⟨rfl, h3⟩ | ⟨h3, h4⟩
        · exact h3
        · exfalso
          have hr0 : Reach S m (L ++ (G ++ L')) a := Reach.mono (L := L ++ G) (fun r hr => by rw [← List.append_assoc]; exact List.mem_append_left _ hr) hn
          have haB := hG.reach hr0
          exact (closed_from hg hi.1 ((hG.alloc a).mpr (List.mem_append_left _ haB)) (fun h1 => hG.notin h1 haB) h3).2 (List.mem_append_left _ hqO)
        · subst h4; rw [hnf h3] at hc'; cases hc'

end step

end Thr
