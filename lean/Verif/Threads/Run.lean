import Verif.Threads.World
import Verif.Threads.Recent

/-!
# What holds in all worlds that threads can get to
-/

namespace Thr
open Mm Rrb VecHeap
open Thr.Prog (ret undef)
open Spec (Cmd Ev)

variable {T : Type} {c : Cfg} {er et n t : Nat} {w w' : World T}

/-- the static nodes -/
abbrev stat (T : Type) (er et : Nat) : Refs T := [rf er emptyRoot, rf et emptyTail]

/-- what all threads have -/
def allOf {α : Type} (n : Nat) (f : Nat → List α) : List α := (List.range n).flatMap f

/-- what the others have -/
def others {α : Type} (n t : Nat) (f : Nat → List α) : List α := ((List.range n).erase t).flatMap f

section lists
variable {α : Type} {f : Nat → List α} {x : List α}

theorem allOf_perm (ht : t < n) : (allOf n f).Perm (f t ++ others n t f) := by
  unfold allOf others
  exact ((List.perm_cons_erase (List.mem_range.mpr ht)).flatMap_right f)

theorem others_upd : others n t (upd f t x) = others n t f := by
  unfold others
  refine List.flatMap_congr fun a ha => upd_ne ?_
  rintro rfl
  exact List.Nodup.not_mem_erase List.nodup_range ha

theorem mem_others {u : Nat} (hu : u < n) (hne : u ≠ t) {y : α} (hy : y ∈ f u) : y ∈ others n t f :=
  List.mem_flatMap.mpr ⟨u, (List.mem_erase_of_ne hne).mpr (List.mem_range.mpr hu), hy⟩

theorem allOf_upd (ht : t < n) : (allOf n (upd f t x)).Perm (x ++ others n t f) := by
  have := allOf_perm (f := upd f t x) ht
  rw [upd_self, others_upd] at this
  exact this

theorem allOf_nil (h : ∀ t < n, f t = []) : allOf n f = [] := List.flatMap_eq_nil_iff.mpr fun t ht => h t (List.mem_range.mp ht)

end lists

/-- those that have something -/
def agents (n : Nat) (th : Nat → Thread T) (pool : List (Vc × List Nat)) (Os : Nat → List Nat) (Ls : Nat → Refs T) (zp : List (Item T)) : Agents (Val T) := fun O L K =>
  (∃ t, t < n ∧ O = Os t ∧ L = Ls t ∧ K = (th t).know) ∨ ∃ (j : Nat) (z : Item T) (q : Vc × List Nat), zp[j]? = some z ∧ pool[j]? = some q ∧ O = [] ∧ L = z.refs ∧ K = q.2

/-- all but thread `t` -/
def otherAgents (n t : Nat) (th : Nat → Thread T) (pool : List (Vc × List Nat)) (Os : Nat → List Nat) (Ls : Nat → Refs T) (zp : List (Item T)) : Agents (Val T) := fun O L K =>
  (∃ u, u < n ∧ u ≠ t ∧ O = Os u ∧ L = Ls u ∧ K = (th u).know) ∨ ∃ (j : Nat) (z : Item T) (q : Vc × List Nat), zp[j]? = some z ∧ pool[j]? = some q ∧ O = [] ∧ L = z.refs ∧ K = q.2

/-- a thread -/
def ThreadOk (c : Cfg) (G : Refs T) (m : Mem Dat T) (ph : Phase T) (O : List Nat) (L : Refs T) (ls : List (List T)) : Prop :=
  match ph with
  | .idle hs => O = [] ∧ ∃ zs : List (Item T), (∀ z ∈ zs, z.Ok c) ∧ L = allRefs zs ∧ hs = zs.map Item.v ∧ ls = zs.map Item.l
  | .busy x p => TSafe c G p O L m (Goal c x ls)

structure Fine (c : Cfg) (er et n : Nat) (w : World T) (s : Spec.State T) (Os : Nat → List Nat) (Ls : Nat → Refs T) (zp : List (Item T)) : Prop where
  runs : Spec.Runs w.log s
  inv : TInv (ts c) w.mem (allOf n Os) (stat T er et ++ (allOf n Ls ++ allRefs zp))
  items : ∀ z ∈ zp, z.Ok c
  pool : w.pool.map Prod.fst = zp.map Item.v
  lists : s.pool = zp.map Item.l
  th : ∀ t < n, ThreadOk c (stat T er et) w.mem (w.th t).phase (Os t) (Ls t) (s.th t)
  known : Known (ts c) (stat T er et) w.mem (allOf n Os) w.clk (agents n w.th w.pool Os Ls zp)
  recent : Recent (ts c) (stat T er et) w.mem (allOf n Os) w.clk w.hist (agents n w.th w.pool Os Ls zp)

section
variable {s : Spec.State T} {Os : Nat → List Nat} {Ls : Nat → Refs T} {zp : List (Item T)}

theorem perm_for {G X Y Z : Refs T} : (G ++ ((X ++ Y) ++ Z)).Perm (X ++ (G ++ (Y ++ Z))) := by
  rw [List.append_assoc, ← List.append_assoc, ← List.append_assoc X]
  exact List.perm_append_comm.append_right _

theorem TInv.perm {S : Sys Dat T (Val T)} {m : Mem Dat T} {O O' : List Nat} {L L' : Refs T} (h : TInv S m O L) (hO : O.Perm O') (hL : L.Perm L') : TInv S m O' L' :=
  ⟨h.1.perm hO hL, fun r hr => h.2 r (hL.mem_iff.mpr hr)⟩

/-- memory as one thread sees it -/
theorem Fine.inv_at (h : Fine c er et n w s Os Ls zp) (ht : t < n) : TInv (ts c) w.mem (Os t ++ others n t Os) (Ls t ++ (stat T er et ++ (others n t Ls ++ allRefs zp))) :=
  h.inv.perm (allOf_perm ht) ((((allOf_perm ht).append_right _).append_left _).trans perm_for)

theorem inv_back {m : Mem Dat T} {O : List Nat} {L : Refs T} (ht : t < n) (h : TInv (ts c) m (O ++ others n t Os) (L ++ (stat T er et ++ (others n t Ls ++ allRefs zp)))) :
    TInv (ts c) m (allOf n (upd Os t O)) (stat T er et ++ (allOf n (upd Ls t L) ++ allRefs zp)) :=
  h.perm (allOf_upd ht).symm ((((allOf_upd ht).append_right _).append_left _).trans perm_for).symm

theorem others_sub (n t : Nat) (th : Nat → Thread T) (pool : List (Vc × List Nat)) (Os : Nat → List Nat) (Ls : Nat → Refs T) (zp : List (Item T)) :
    ∀ O2 L2 K2, otherAgents n t th pool Os Ls zp O2 L2 K2 → (∀ x ∈ O2, x ∈ others n t Os) ∧ ∀ r ∈ L2, r ∈ others n t Ls ++ allRefs zp := by
  rintro O2 L2 K2 (⟨u, hu, hne, rfl, rfl, rfl⟩ | ⟨j, z, q, hz, hq, rfl, rfl, rfl⟩)
  · exact ⟨fun x hx => mem_others hu hne hx, fun r hr => List.mem_append_left _ (mem_others hu hne hr)⟩
  · exact ⟨fun x hx => (List.not_mem_nil hx).elim, fun r hr => List.mem_append_right _ (List.mem_flatMap.mpr ⟨z, List.mem_of_getElem? hz, hr⟩)⟩

theorem agents_at {O : List Nat} {L : Refs T} {K : List Nat} (th : Nat → Thread T) (pool : List (Vc × List Nat)) (ht : t < n) :
    agents n th pool Os Ls zp O L K ↔ (O = Os t ∧ L = Ls t ∧ K = (th t).know) ∨ otherAgents n t th pool Os Ls zp O L K := by
  constructor
  · rintro (⟨u, hu, h⟩ | h)
    · by_cases hut : u = t
      · subst hut; exact .inl h
      · exact .inr (.inl ⟨u, hu, hut, h⟩)
    · exact .inr (.inr h)
  · rintro (h | ⟨u, hu, _, h⟩ | h)
    · exact .inl ⟨t, ht, h⟩
    · exact .inl ⟨u, hu, h⟩
    · exact .inr h

theorem otherAgents_upd {O : List Nat} {L : Refs T} {x : Thread T} {th : Nat → Thread T} {pool : List (Vc × List Nat)} {O2 : List Nat} {L2 : Refs T} {K2 : List Nat} :
    otherAgents n t (upd th t x) pool (upd Os t O) (upd Ls t L) zp O2 L2 K2 ↔ otherAgents n t th pool Os Ls zp O2 L2 K2 := by
  unfold otherAgents
  refine or_congr (exists_congr fun u => and_congr_right fun _ => and_congr_right fun hu => ?_) Iff.rfl
  rw [upd_ne hu, upd_ne hu, upd_ne hu]

theorem Known.congr {S : Sys Dat T (Val T)} {G : Refs T} {m : Mem Dat T} {O O1 : List Nat} {k : Clk} {A A' : Agents (Val T)} (h : Known S G m O k A) (hO : ∀ x ∈ O1, x ∈ O) (hA : ∀ O L K, A O L K ↔ A' O L K) : Known S G m O1 k A' :=
  h.mono hO (fun O L K h x hx => ⟨O, L, K, (hA O L K).mp h, hx, fun _ h => h⟩) (fun O L K h x hx => ⟨O, L, K, (hA O L K).mpr h, hx, fun _ h => h⟩)

/-- what is known, as one thread sees it -/
theorem Fine.known_at (h : Fine c er et n w s Os Ls zp) (ht : t < n) : Known (ts c) (stat T er et) w.mem (Os t ++ others n t Os) w.clk
    fun O2 L2 K2 => (O2 = Os t ∧ L2 = Ls t ∧ K2 = (w.th t).know) ∨ otherAgents n t w.th w.pool Os Ls zp O2 L2 K2 :=
  h.known.congr (fun x hx => (allOf_perm ht).mem_iff.mpr hx) fun _ _ _ => agents_at w.th w.pool ht

theorem known_back {m : Mem Dat T} {O : List Nat} {L : Refs T} {k : Clk} {x : Thread T} {th : Nat → Thread T} {pool : List (Vc × List Nat)} (ht : t < n)
    (h : Known (ts c) (stat T er et) m (O ++ others n t Os) k fun O2 L2 K2 => (O2 = O ∧ L2 = L ∧ K2 = x.know) ∨ otherAgents n t th pool Os Ls zp O2 L2 K2) :
    Known (ts c) (stat T er et) m (allOf n (upd Os t O)) k (agents n (upd th t x) pool (upd Os t O) (upd Ls t L) zp) := by
  refine h.congr (fun y hy => (allOf_upd ht).mem_iff.mp hy) fun O2 L2 K2 => ?_
  rw [agents_at _ _ ht, upd_self, upd_self, upd_self, otherAgents_upd]

theorem Recent.congr {S : Sys Dat T (Val T)} {G : Refs T} {m : Mem Dat T} {O O1 : List Nat} {k : Clk} {hi : Nat → List Mod} {A A' : Agents (Val T)} (h : Recent S G m O k hi A) (hO : ∀ x, x ∈ O1 ↔ x ∈ O) (hA : ∀ O L K, A O L K ↔ A' O L K) :
    Recent S G m O1 k hi A' :=
  h.mono hO (fun O L K h x hx => ⟨O, L, K, (hA O L K).mp h, hx, fun _ h => h⟩) (fun O L K h x hx => ⟨O, L, K, (hA O L K).mpr h, hx, fun _ h => h⟩)

theorem Fine.recent_at (h : Fine c er et n w s Os Ls zp) (ht : t < n) : Recent (ts c) (stat T er et) w.mem (Os t ++ others n t Os) w.clk w.hist
    fun O2 L2 K2 => (O2 = Os t ∧ L2 = Ls t ∧ K2 = (w.th t).know) ∨ otherAgents n t w.th w.pool Os Ls zp O2 L2 K2 :=
  h.recent.congr (fun x => (allOf_perm ht).mem_iff.symm) fun _ _ _ => agents_at w.th w.pool ht

theorem recent_back {m : Mem Dat T} {O : List Nat} {L : Refs T} {k : Clk} {hi : Nat → List Mod} {x : Thread T} {th : Nat → Thread T} {pool : List (Vc × List Nat)} (ht : t < n)
    (h : Recent (ts c) (stat T er et) m (O ++ others n t Os) k hi fun O2 L2 K2 => (O2 = O ∧ L2 = L ∧ K2 = x.know) ∨ otherAgents n t th pool Os Ls zp O2 L2 K2) :
    Recent (ts c) (stat T er et) m (allOf n (upd Os t O)) k hi (agents n (upd th t x) pool (upd Os t O) (upd Ls t L) zp) := by
  refine h.congr (fun y => (allOf_upd ht).mem_iff) fun O2 L2 K2 => ?_
  rw [agents_at _ _ ht, upd_self, upd_self, upd_self, otherAgents_upd]

/-- counting what a thread has in another way -/
theorem known_moved {S : Sys Dat T (Val T)} {G : Refs T} {m : Mem Dat T} {O O1 O' : List Nat} {L L1 : Refs T} {k : Clk} {K : List Nat} {A : Agents (Val T)} (hm : Moved S G no no O L m O1 L1 m)
    (h : Known S G m (O ++ O') k fun O2 L2 K2 => (O2 = O ∧ L2 = L ∧ K2 = K) ∨ A O2 L2 K2) : Known S G m (O1 ++ O') k fun O2 L2 K2 => (O2 = O1 ∧ L2 = L1 ∧ K2 = K) ∨ A O2 L2 K2 := by
  refine h.mono ?_ ?_ ?_
  · intro x hx
    rcases List.mem_append.mp hx with hx | hx
    · exact List.mem_append_left _ ((hm.1 x hx).elim id False.elim)
    · exact List.mem_append_right _ hx
  · rintro O2 L2 K2 (⟨rfl, rfl, rfl⟩ | h2) x hx
    · exact ⟨O1, L1, _, .inl ⟨rfl, rfl, rfl⟩, (hm.2.1 x hx).elim id False.elim, fun _ h => h⟩
    · exact ⟨O2, L2, K2, .inr h2, hx, fun _ h => h⟩
  · rintro O2 L2 K2 (⟨rfl, rfl, rfl⟩ | h2) x hx
    · exact ⟨O, L, _, .inl ⟨rfl, rfl, rfl⟩, (hm.2.2.1 x hx).elim id False.elim, fun _ h => h⟩
    · exact ⟨O2, L2, K2, .inr h2, hx, fun _ h => h⟩

theorem ThreadOk.kept {G : Refs T} {m m' : Mem Dat T} {ph : Phase T} {O : List Nat} {L : Refs T} {ls : List (List T)} (h : ThreadOk c G m ph O L ls) (hk : Kept (ts c) O (L ++ G) m m') : ThreadOk c G m' ph O L ls := by
  cases ph with
  | idle hs => exact h
  | busy x p => exact Safe.kept h hk

/-- the other threads -/
theorem th_upd {m' : Mem Dat T} {x : Thread T} {O : List Nat} {L : Refs T} {ls : List (List T)} (h : Fine c er et n w s Os Ls zp) (hk : Kept (ts c) (others n t Os) (stat T er et ++ (others n t Ls ++ allRefs zp)) w.mem m')
    (hx : ThreadOk c (stat T er et) m' x.phase O L ls) : ∀ u < n, ThreadOk c (stat T er et) m' (upd w.th t x u).phase (upd Os t O u) (upd Ls t L u) ((s.set t ls).th u) := by
  intro u hu
  by_cases hut : u = t
  · subst hut
    rw [upd_self, upd_self, upd_self]
    simpa [Spec.State.set] using hx
  · rw [upd_ne hut, upd_ne hut, upd_ne hut]
    have := (h.th u hu).kept (hk.mono (L := Ls u ++ stat T er et) (O := Os u) (fun r hr => ?_) (fun y hy => mem_others hu hut hy))
    · simpa [Spec.State.set, hut] using this
    · rcases List.mem_append.mp hr with hr | hr
      · exact List.mem_append_right _ (List.mem_append_left _ (mem_others hu hut hr))
      · exact List.mem_append_left _ hr

/-- other names for the same -/
theorem set_self : s.set t (s.th t) = s := by
  obtain ⟨th, pool⟩ := s
  simp only [Spec.State.set, Spec.State.mk.injEq, and_true]
  funext u
  by_cases h : u = t
  · rw [if_pos h, h]
  · rw [if_neg h]

theorem fine_start (hB : 0 < c.B) (h : Fine c er et n w s Os Ls zp) {K : List Nat} {hs : List Vc} {x : Cmd T} (ht : t < n) (hw : w.th t = ⟨K, .idle hs⟩) (hx : Allowed c x hs) :
    Fine c er et n { w with th := upd w.th t ⟨K, .busy x (code c er et x hs)⟩ } s Os Ls zp := by
  have h1 := h.th t ht
  rw [hw] at h1
  obtain ⟨hO, zs, hok, hL, rfl, hl⟩ := h1
  have hself : upd Os t (Os t) = Os := funext fun u => by by_cases hu : u = t; · rw [hu, upd_self]
                                                          · rw [upd_ne hu]
  have hselfL : upd Ls t (Ls t) = Ls := funext fun u => by by_cases hu : u = t; · rw [hu, upd_self]
                                                           · rw [upd_ne hu]
  have hth := th_upd (t := t) (x := ⟨K, .busy x (code c er et x (zs.map Item.v))⟩) (O := Os t) (L := Ls t) (ls := s.th t) h .refl (by
    show TSafe c _ _ _ _ _ _
    rw [hO, hL, hl]
    exact code_safe hB (by simp [Statics]) hok hx w.mem)
  rw [set_self, hself, hselfL] at hth
  refine { h with th := hth, known := ?_, recent := ?_ }
  · have hk := h.known_at ht
    rw [hw] at hk
    have := known_back (x := ⟨K, .busy x (code c er et x (zs.map Item.v))⟩) ht hk
    rw [hself, hselfL] at this
    exact this
  · have hk := h.recent_at ht
    rw [hw] at hk
    have := recent_back (x := ⟨K, .busy x (code c er et x (zs.map Item.v))⟩) ht hk
    rw [hself, hselfL] at this
    exact this

theorem fine_run (h : Fine c er et n w s Os Ls zp) {K : List Nat} {x : Cmd T} {p p' : TM T (List Vc × Option T)} {o : Op} {a : Nat} {m' : Mem Dat T} (ht : t < n) (hw : w.th t = ⟨K, .busy x p⟩)
    (hs : Prog.Step room w.mem p o a m' p') :
    ∃ Os Ls, Fine c er et n { w with mem := m', th := upd w.th t ⟨o.know a w.now K w.clk, .busy x p'⟩, clk := w.clk.after o a w.now K, hist := histAfter w.hist w.clk o a w.now K m', now := w.now + 1 } s Os Ls zp := by
  have h1 := h.th t ht
  rw [hw] at h1
  obtain ⟨O0, L0, O1, L1, hi0, hm0, hn, he, hi1, hk, hm1, hsafe⟩ := safe_step h1 (h.inv_at ht) hs
  have hkn := h.known_at ht
  rw [hw] at hkn
  have hkn1 := known_moved hm0 hkn
  have hkn2 := Known.step (n := w.now) rfl hi0 hn he hi1 hk hm1 (others_sub n t w.th w.pool Os Ls zp) hkn1
  have hre := h.recent_at ht
  rw [hw] at hre
  have hre1 := Recent.moved rfl (h.inv_at ht) hi0 hm0 hre
  have hre2 := Recent.step (n := w.now) rfl hs hi0 hn he hi1 hk hm1 (others_sub n t w.th w.pool Os Ls zp) hre1
  have hth := th_upd (t := t) (x := ⟨o.know a w.now K w.clk, .busy x p'⟩) (O := O1) (L := L1) (ls := s.th t) h hk hsafe
  rw [set_self] at hth
  exact ⟨upd Os t O1, upd Ls t L1, { h with inv := inv_back ht hi1, th := hth, known := known_back (x := ⟨o.know a w.now K w.clk, .busy x p'⟩) ht hkn2, recent := recent_back (x := ⟨o.know a w.now K w.clk, .busy x p'⟩) ht hre2 }⟩

/-- a load that sees a 1 sees the last value -/
theorem Fine.sees (h : Fine c er et n w s Os Ls zp) {K : List Nat} {x : Cmd T} {a : Nat} {k : Bool → TM T (List Vc × Option T)} {pre post : List Mod} {y : Mod} (ht : t < n)
    (hw : w.th t = ⟨K, .busy x (.unique a k)⟩) (hh : w.hist a = pre ++ y :: post) (hp : ∀ z ∈ pre, z.id ∉ K) (hy : y.val = 1) :
    (∃ cl, w.mem a = some cl ∧ cl.rc = 1) ∧ y.rel = w.clk.rel a := by
  have h1 := h.th t ht
  rw [hw] at h1
  obtain ⟨O0, L0, hi0, hm0, hd⟩ := safe_direct h1 (h.inv_at ht)
  have hre := h.recent_at ht
  rw [hw] at hre
  have hre1 := Recent.moved rfl (h.inv_at ht) hi0 hm0 hre
  obtain ⟨e, he, hf⟩ := hre1.mine _ _ _ (.inl ⟨rfl, rfl, rfl⟩) a (.inr hd)
  have hpre := hf.sees he hh hp hy
  subst hpre
  obtain ⟨r, hr, rfl⟩ := hd
  obtain ⟨cl, hcl⟩ : ∃ cl, w.mem r.ptr = some cl := by
    obtain ⟨⟨B, J, g, hJ, hG⟩, -⟩ := hi0
    exact hG.live (hG.mem_of_ref (List.mem_append_left _ hr))
  obtain ⟨y', H, h2, h3, h4⟩ := hre1.head _ _ hcl
  rw [h2] at hh
  cases hh
  exact ⟨⟨cl, hcl, by rw [← h3]; exact hy⟩, h4⟩

theorem fine_load (h : Fine c er et n w s Os Ls zp) {K : List Nat} {x : Cmd T} {a : Nat} {k : Bool → TM T (List Vc × Option T)} {pre post : List Mod} {y : Mod} (ht : t < n)
    (hw : w.th t = ⟨K, .busy x (.unique a k)⟩) (hm : w.mem a ≠ none) (hh : w.hist a = pre ++ y :: post) (hp : ∀ z ∈ pre, z.id ∉ K) :
    ∃ Os Ls, Fine c er et n { w with th := upd w.th t ⟨w.now :: (K ++ if y.val = 1 then y.rel else []), .busy x (k (y.val == 1))⟩,
                                     clk := w.clk.after (.unique (y.val == 1)) a w.now K, now := w.now + 1 } s Os Ls zp := by
  obtain ⟨cl, hcl⟩ := Option.ne_none_iff_exists'.mp hm
  have hs : Prog.Step room w.mem (.unique a k) (.unique (y.val == 1)) a w.mem (k (y.val == 1)) := by
    refine .unique hcl fun hb => ?_
    obtain ⟨⟨cl', h1, h2⟩, -⟩ := h.sees ht hw hh hp (beq_iff_eq.mp hb)
    rw [hcl] at h1; cases h1
    exact h2
  have hk : (Op.unique (y.val == 1)).know a w.now K w.clk = w.now :: (K ++ if y.val = 1 then y.rel else []) := by
    by_cases hy : y.val = 1
    · rw [if_pos hy, (h.sees ht hw hh hp hy).2, hy]; rfl
    · rw [if_neg hy, beq_false_of_ne hy]; rfl
  have hhist : histAfter w.hist w.clk (.unique (y.val == 1)) a w.now K w.mem = w.hist := by
    funext z
    exact hist_keep fun _ => ⟨rfl, by simp⟩
  have := fine_run h ht hw hs
  rw [hk, hhist] at this
  exact this

theorem fine_finish (h : Fine c er et n w s Os Ls zp) {K : List Nat} {x : Cmd T} {hs : List Vc} {r : Option T} (ht : t < n) (hw : w.th t = ⟨K, .busy x (ret (hs, r))⟩) :
    ∃ s Os Ls, Fine c er et n { w with th := upd w.th t ⟨K, .idle hs⟩, log := w.log ++ [.done t x r] } s Os Ls zp := by
  have h1 := h.th t ht
  rw [hw] at h1
  obtain ⟨O1, L1, hi1, hm, hO, zs, hok, hL, hh, hr⟩ := h1 w.mem _ _ .refl (h.inv_at ht)
  have hkn := h.known_at ht
  rw [hw] at hkn
  have hkn1 := known_moved hm hkn
  have hre := h.recent_at ht
  rw [hw] at hre
  have hre1 := Recent.moved rfl (h.inv_at ht) hi1 hm hre
  have hth := th_upd (t := t) (x := ⟨K, .idle hs⟩) (O := O1) (L := L1) (ls := zs.map Item.l) h .refl ⟨hO, zs, hok, hL, hh, rfl⟩
  exact ⟨s.set t (zs.map Item.l), upd Os t O1, upd Ls t L1, { h with runs := .snoc h.runs (.done hr), inv := inv_back ht hi1, th := hth, known := known_back (x := ⟨K, .idle hs⟩) ht hkn1, recent := recent_back (x := ⟨K, .idle hs⟩) ht hre1 }⟩

theorem Fine.pool_length (h : Fine c er et n w s Os Ls zp) : w.pool.length = zp.length := by
  have := congrArg List.length h.pool
  simpa using this

theorem allRefs_append (xs ys : List (Item T)) : allRefs (xs ++ ys) = allRefs xs ++ allRefs ys := List.flatMap_append

theorem fine_send (h : Fine c er et n w s Os Ls zp) {i : Nat} {K : List Nat} {hs : List Vc} {v : Vc} (ht : t < n) (hw : w.th t = ⟨K, .idle hs⟩) (hv : hs[i]? = some v) :
    ∃ s Os Ls zp, Fine c er et n { w with th := upd w.th t ⟨K, .idle (hs.eraseIdx i)⟩, pool := w.pool ++ [(v, K)], log := w.log ++ [.send t i] } s Os Ls zp := by
  have h1 := h.th t ht
  rw [hw] at h1
  obtain ⟨hO, zs, hok, hL, rfl, hl⟩ := h1
  obtain ⟨z, hz, rfl⟩ : ∃ z, zs[i]? = some z ∧ z.v = v := by
    rw [List.getElem?_map] at hv
    exact Option.map_eq_some_iff.mp hv
  have hzm := List.mem_of_getElem? hz
  have hp := perm_erase hz
  have hkn := h.known_at ht
  rw [hw] at hkn
  have hre := h.recent_at ht
  rw [hw] at hre
  have hpl := h.pool_length
  have hth := th_upd (t := t) (x := ⟨K, .idle ((zs.map Item.v).eraseIdx i)⟩) (O := []) (L := allRefs (zs.eraseIdx i)) (ls := (s.th t).eraseIdx i) h .refl
    ⟨rfl, zs.eraseIdx i, fun y hy => hok y (List.mem_of_mem_eraseIdx hy), rfl, by rw [List.eraseIdx_map], by rw [hl, List.eraseIdx_map]⟩
  have hfwd : ∀ O2 L2 K2, ((O2 = Os t ∧ L2 = Ls t ∧ K2 = K) ∨ otherAgents n t w.th w.pool Os Ls zp O2 L2 K2) → ∀ y, Mine (ts c) (stat T er et) O2 L2 w.mem y → ∃ O' L' K', agents n (upd w.th t ⟨K, .idle ((zs.map Item.v).eraseIdx i)⟩) (w.pool ++ [(z.v, K)]) (upd Os t []) (upd Ls t (allRefs (zs.eraseIdx i))) (zp ++ [z]) O' L' K' ∧ Mine (ts c) (stat T er et) O' L' w.mem y ∧ ∀ e ∈ K2, e ∈ K' := by
    rintro O2 L2 K2 (⟨rfl, rfl, hK⟩ | h2) y hy
    · subst hK
      rcases hy with hy | ⟨r, hr, hf⟩
      · rw [hO] at hy; cases hy
      · rcases List.mem_append.mp hr with hr | hr
        · rw [hL] at hr
          rcases List.mem_append.mp (hp.mem_iff.mp hr) with hr | hr
          · refine ⟨[], z.refs, K2, .inr ⟨zp.length, z, (z.v, K2), by simp, by rw [← hpl]; simp, rfl, rfl, rfl⟩, .inr ⟨r, List.mem_append_left _ hr, hf⟩, fun _ h => h⟩
          · exact ⟨[], allRefs (zs.eraseIdx i), K2, .inl ⟨t, ht, by rw [upd_self], by rw [upd_self], by rw [upd_self]⟩, .inr ⟨r, List.mem_append_left _ hr, hf⟩, fun _ h => h⟩
        · exact ⟨[], allRefs (zs.eraseIdx i), K2, .inl ⟨t, ht, by rw [upd_self], by rw [upd_self], by rw [upd_self]⟩, .inr ⟨r, List.mem_append_right _ hr, hf⟩, fun _ h => h⟩
    · refine ⟨O2, L2, K2, ?_, hy, fun _ h => h⟩
      rcases h2 with ⟨u, hu, hne, h2⟩ | ⟨j, y, q, hj, hq, h2⟩
      · exact .inl ⟨u, hu, by rw [upd_ne hne, upd_ne hne, upd_ne hne]; exact h2⟩
      · exact .inr ⟨j, y, q, by rw [List.getElem?_append_left (List.getElem?_eq_some_iff.mp hj).1]; exact hj, by rw [List.getElem?_append_left (List.getElem?_eq_some_iff.mp hq).1]; exact hq, h2⟩
  refine ⟨{ s.set t ((s.th t).eraseIdx i) with pool := s.pool ++ [z.l] }, upd Os t [], upd Ls t (allRefs (zs.eraseIdx i)), zp ++ [z], ?_⟩
  refine ⟨.snoc h.runs (.send (l := z.l) (by rw [hl, List.getElem?_map, hz]; rfl)), ?_, ?_, ?_, ?_, hth, ?_, ?_⟩
  · refine (h.inv_at ht).perm (by rw [hO]; exact (allOf_upd ht).symm) (.trans ?_ ((((allOf_upd ht).append_right _).append_left _).symm))
    rw [hL]
    classical
    refine List.perm_iff_count.mpr fun r => ?_
    have := hp.count_eq r
    have h2 : (allRefs [z]) = z.refs := by simp [allRefs]
    simp only [List.count_append, allRefs_append, h2] at this ⊢
    omega
  · intro y hy
    rcases List.mem_append.mp hy with hy | hy
    · exact h.items y hy
    · rw [List.mem_singleton] at hy; subst hy; exact hok y hzm
  · rw [List.map_append, List.map_append, h.pool]; rfl
  · rw [List.map_append, h.lists]; rfl
  · refine hkn.mono (A' := agents n (upd w.th t ⟨K, .idle ((zs.map Item.v).eraseIdx i)⟩) (w.pool ++ [(z.v, K)]) (upd Os t []) (upd Ls t (allRefs (zs.eraseIdx i))) (zp ++ [z])) ?_ ?_ ?_
    · intro y hy
      have := (allOf_upd ht).mem_iff.mp hy
      exact List.mem_append_right _ (by simpa using this)
    · exact hfwd
    · rintro O2 L2 K2 (⟨u, hu, rfl, rfl, rfl⟩ | ⟨j, y', q, hj, hq, rfl, rfl, rfl⟩) y hy
      · by_cases hut : u = t
        · subst hut
          rw [upd_self, upd_self] at hy
          refine ⟨Os u, Ls u, K, .inl ⟨rfl, rfl, rfl⟩, hy.elim (fun h => by cases h) fun hy => .inr (hy.mono fun r hr => ?_), fun e he => by rw [upd_self]; exact he⟩
          rcases List.mem_append.mp hr with hr | hr
          · exact List.mem_append_left _ (by rw [hL]; exact hp.mem_iff.mpr (List.mem_append_right _ hr))
          · exact List.mem_append_right _ hr
        · rw [upd_ne hut, upd_ne hut] at hy
          rw [upd_ne hut]
          exact ⟨_, _, _, .inr (.inl ⟨u, hu, hut, rfl, rfl, rfl⟩), hy, fun _ h => h⟩
      · by_cases hjl : j < zp.length
        · rw [List.getElem?_append_left hjl] at hj
          rw [List.getElem?_append_left (by rw [hpl]; exact hjl)] at hq
          exact ⟨_, _, _, .inr (.inr ⟨j, y', q, hj, hq, rfl, rfl, rfl⟩), hy, fun _ h => h⟩
        · have hj' : j = zp.length := by
            have := (List.getElem?_eq_some_iff.mp hj).1
            rw [List.length_append, List.length_singleton] at this
            omega
          subst hj'
          simp only [List.getElem?_concat_length, Option.some.injEq] at hj
          rw [← hpl, List.getElem?_concat_length, Option.some.injEq] at hq
          subst hj hq
          refine ⟨Os t, Ls t, K, .inl ⟨rfl, rfl, rfl⟩, hy.elim (fun h => by cases h) fun hy => .inr (hy.mono fun r hr => ?_), fun e he => he⟩
          rcases List.mem_append.mp hr with hr | hr
          · exact List.mem_append_left _ (by rw [hL]; exact hp.mem_iff.mpr (List.mem_append_left _ hr))
          · exact List.mem_append_right _ hr
  · refine hre.mono (A' := agents n (upd w.th t ⟨K, .idle ((zs.map Item.v).eraseIdx i)⟩) (w.pool ++ [(z.v, K)]) (upd Os t []) (upd Ls t (allRefs (zs.eraseIdx i))) (zp ++ [z])) ?_ hfwd ?_
    · intro y
      refine (allOf_upd ht).mem_iff.trans ?_
      rw [hO]
    · rintro O2 L2 K2 (⟨u, hu, rfl, rfl, rfl⟩ | ⟨j, y', q, hj, hq, rfl, rfl, rfl⟩) y hy
      · by_cases hut : u = t
        · subst hut
          rw [upd_self, upd_self] at hy
          refine ⟨Os u, Ls u, K, .inl ⟨rfl, rfl, rfl⟩, hy.elim (fun h => by cases h) fun ⟨r, hr, hy⟩ => .inr ⟨r, ?_, hy⟩, fun e he => by rw [upd_self]; exact he⟩
          rw [hL]; exact hp.mem_iff.mpr (List.mem_append_right _ hr)
        · rw [upd_ne hut, upd_ne hut] at hy
          rw [upd_ne hut]
          exact ⟨_, _, _, .inr (.inl ⟨u, hu, hut, rfl, rfl, rfl⟩), hy, fun _ h => h⟩
      · by_cases hjl : j < zp.length
        · rw [List.getElem?_append_left hjl] at hj
          rw [List.getElem?_append_left (by rw [hpl]; exact hjl)] at hq
          exact ⟨_, _, _, .inr (.inr ⟨j, y', q, hj, hq, rfl, rfl, rfl⟩), hy, fun _ h => h⟩
        · have hj' : j = zp.length := by
            have := (List.getElem?_eq_some_iff.mp hj).1
            rw [List.length_append, List.length_singleton] at this
            omega
          subst hj'
          simp only [List.getElem?_concat_length, Option.some.injEq] at hj
          rw [← hpl, List.getElem?_concat_length, Option.some.injEq] at hq
          subst hj hq
          refine ⟨Os t, Ls t, K, .inl ⟨rfl, rfl, rfl⟩, hy.elim (fun h => by cases h) fun ⟨r, hr, hy⟩ => .inr ⟨r, ?_, hy⟩, fun e he => he⟩
          rw [hL]; exact hp.mem_iff.mpr (List.mem_append_left _ hr)

theorem fine_recv (h : Fine c er et n w s Os Ls zp) {j : Nat} {K K' : List Nat} {hs : List Vc} {v : Vc} (ht : t < n) (hw : w.th t = ⟨K, .idle hs⟩) (hv : w.pool[j]? = some (v, K')) :
    ∃ s Os Ls zp, Fine c er et n { w with th := upd w.th t ⟨K ++ K', .idle (hs ++ [v])⟩, pool := w.pool.eraseIdx j, log := w.log ++ [.recv t j] } s Os Ls zp := by
  have h1 := h.th t ht
  rw [hw] at h1
  obtain ⟨hO, zs, hok, hL, rfl, hl⟩ := h1
  have hpl := h.pool_length
  obtain ⟨z, hz, rfl⟩ : ∃ z, zp[j]? = some z ∧ z.v = v := by
    have h2 : (w.pool.map Prod.fst)[j]? = some v := by rw [List.getElem?_map, hv]; rfl
    rw [h.pool, List.getElem?_map] at h2
    exact Option.map_eq_some_iff.mp h2
  have hzm := List.mem_of_getElem? hz
  have hp := perm_erase hz
  have hkn := h.known_at ht
  rw [hw] at hkn
  have hre := h.recent_at ht
  rw [hw] at hre
  have hth := th_upd (t := t) (x := ⟨K ++ K', .idle (zs.map Item.v ++ [z.v])⟩) (O := []) (L := allRefs (zs ++ [z])) (ls := s.th t ++ [z.l]) h .refl
    ⟨rfl, zs ++ [z], fun y hy => (List.mem_append.mp hy).elim (hok y) (fun h2 => by rw [List.mem_singleton] at h2; subst h2; exact h.items y hzm), rfl, by simp, by rw [hl]; simp⟩
  refine ⟨{ s.set t (s.th t ++ [z.l]) with pool := s.pool.eraseIdx j }, upd Os t [], upd Ls t (allRefs (zs ++ [z])), zp.eraseIdx j, ?_⟩
  have hz1 : allRefs [z] = z.refs := by simp [allRefs]
  have hthr : agents n (upd w.th t ⟨K ++ K', .idle (zs.map Item.v ++ [z.v])⟩) (w.pool.eraseIdx j) (upd Os t []) (upd Ls t (allRefs (zs ++ [z]))) (zp.eraseIdx j) [] (allRefs (zs ++ [z])) (K ++ K') :=
    .inl ⟨t, ht, by rw [upd_self], by rw [upd_self], by rw [upd_self]⟩
  have hfwd : ∀ O2 L2 K2, ((O2 = Os t ∧ L2 = Ls t ∧ K2 = K) ∨ otherAgents n t w.th w.pool Os Ls zp O2 L2 K2) → ∀ y, Mine (ts c) (stat T er et) O2 L2 w.mem y → ∃ O3 L3 K3, agents n (upd w.th t ⟨K ++ K', .idle (zs.map Item.v ++ [z.v])⟩) (w.pool.eraseIdx j) (upd Os t []) (upd Ls t (allRefs (zs ++ [z]))) (zp.eraseIdx j) O3 L3 K3 ∧ Mine (ts c) (stat T er et) O3 L3 w.mem y ∧ ∀ e ∈ K2, e ∈ K3 := by
    rintro O2 L2 K2 (⟨rfl, rfl, rfl⟩ | ⟨u, hu, hne, rfl, rfl, rfl⟩ | ⟨i, y', q, hi, hq, rfl, rfl, rfl⟩) y hy
    · refine ⟨_, _, _, hthr, hy.elim (fun h => by rw [hO] at h; cases h) fun hy => .inr (hy.mono fun r hr => ?_), fun e he => List.mem_append_left _ he⟩
      rcases List.mem_append.mp hr with hr | hr
      · rw [hL] at hr
        exact List.mem_append_left _ (by rw [allRefs_append]; exact List.mem_append_left _ hr)
      · exact List.mem_append_right _ hr
    · exact ⟨Os u, Ls u, _, .inl ⟨u, hu, by rw [upd_ne hne], by rw [upd_ne hne], by rw [upd_ne hne]⟩, hy, fun _ h => h⟩
    · by_cases hij : i = j
      · subst hij
        rw [hz] at hi; cases hi
        rw [hv] at hq; cases hq
        refine ⟨_, _, _, hthr, hy.elim (fun h => by cases h) fun hy => .inr (hy.mono fun r hr => ?_), fun e he => List.mem_append_right _ he⟩
        rcases List.mem_append.mp hr with hr | hr
        · exact List.mem_append_left _ (by rw [allRefs_append, hz1]; exact List.mem_append_right _ hr)
        · exact List.mem_append_right _ hr
      · refine ⟨_, _, _, .inr ⟨if i < j then i else i - 1, y', q, ?_, ?_, rfl, rfl, rfl⟩, hy, fun _ h => h⟩
        · rw [List.getElem?_eraseIdx]
          by_cases h3 : i < j
          · rw [if_pos h3, if_pos h3]; exact hi
          · rw [if_neg h3, if_neg (by omega), show i - 1 + 1 = i by omega]; exact hi
        · rw [List.getElem?_eraseIdx]
          by_cases h3 : i < j
          · rw [if_pos h3, if_pos h3]; exact hq
          · rw [if_neg h3, if_neg (by omega), show i - 1 + 1 = i by omega]; exact hq
  refine ⟨.snoc h.runs (.recv (l := z.l) (by rw [h.lists, List.getElem?_map, hz]; rfl)), ?_, fun y hy => h.items y (List.mem_of_mem_eraseIdx hy), ?_, ?_, hth, ?_, ?_⟩
  · refine (h.inv_at ht).perm (by rw [hO]; exact (allOf_upd ht).symm) (.trans ?_ ((((allOf_upd ht).append_right _).append_left _).symm))
    rw [hL]
    classical
    refine List.perm_iff_count.mpr fun r => ?_
    have := hp.count_eq r
    simp only [List.count_append, allRefs_append, hz1] at this ⊢
    omega
  · show (w.pool.eraseIdx j).map Prod.fst = _
    rw [← List.eraseIdx_map, ← List.eraseIdx_map, h.pool]
  · show s.pool.eraseIdx j = _
    rw [h.lists, List.eraseIdx_map]
  · refine hkn.mono (A' := agents n (upd w.th t ⟨K ++ K', .idle (zs.map Item.v ++ [z.v])⟩) (w.pool.eraseIdx j) (upd Os t []) (upd Ls t (allRefs (zs ++ [z]))) (zp.eraseIdx j)) ?_ ?_ ?_
    · intro y hy
      have := (allOf_upd ht).mem_iff.mp hy
      exact List.mem_append_right _ (by simpa using this)
    · exact hfwd
    · rintro O2 L2 K2 (⟨u, hu, rfl, rfl, rfl⟩ | ⟨i, y', q, hi, hq, rfl, rfl, rfl⟩) y hy
      · by_cases hut : u = t
        · subst hut
          rw [upd_self, upd_self] at hy
          rw [upd_self]
          rcases hy with hy | ⟨r, hr, hf⟩
          · cases hy
          · rcases List.mem_append.mp hr with hr | hr
            · rw [allRefs_append, hz1] at hr
              rcases List.mem_append.mp hr with hr | hr
              · exact ⟨Os u, Ls u, K, .inl ⟨rfl, rfl, rfl⟩, .inr ⟨r, List.mem_append_left _ (hL ▸ hr), hf⟩, fun e he => List.mem_append_left _ he⟩
              · exact ⟨[], z.refs, K', .inr (.inr ⟨j, z, (z.v, K'), hz, hv, rfl, rfl, rfl⟩), .inr ⟨r, List.mem_append_left _ hr, hf⟩, fun e he => List.mem_append_right _ he⟩
            · exact ⟨Os u, Ls u, K, .inl ⟨rfl, rfl, rfl⟩, .inr ⟨r, List.mem_append_right _ hr, hf⟩, fun e he => List.mem_append_left _ he⟩
        · rw [upd_ne hut, upd_ne hut] at hy
          rw [upd_ne hut]
          exact ⟨_, _, _, .inr (.inl ⟨u, hu, hut, rfl, rfl, rfl⟩), hy, fun _ h => h⟩
      · rw [List.getElem?_eraseIdx] at hi hq
        by_cases h3 : i < j
        · rw [if_pos h3] at hi hq
          exact ⟨_, _, _, .inr (.inr ⟨i, y', q, hi, hq, rfl, rfl, rfl⟩), hy, fun _ h => h⟩
        · rw [if_neg h3] at hi hq
          exact ⟨_, _, _, .inr (.inr ⟨i + 1, y', q, hi, hq, rfl, rfl, rfl⟩), hy, fun _ h => h⟩
  · refine hre.mono (A' := agents n (upd w.th t ⟨K ++ K', .idle (zs.map Item.v ++ [z.v])⟩) (w.pool.eraseIdx j) (upd Os t []) (upd Ls t (allRefs (zs ++ [z]))) (zp.eraseIdx j)) ?_ hfwd ?_
    · intro y
      refine (allOf_upd ht).mem_iff.trans ?_
      rw [hO]
    · rintro O2 L2 K2 (⟨u, hu, rfl, rfl, rfl⟩ | ⟨i, y', q, hi, hq, rfl, rfl, rfl⟩) y hy
      · by_cases hut : u = t
        · subst hut
          rw [upd_self, upd_self] at hy
          rw [upd_self]
          rcases hy with hy | ⟨r, hr, hf⟩
          · cases hy
          · rw [allRefs_append, hz1] at hr
            rcases List.mem_append.mp hr with hr | hr
            · exact ⟨Os u, Ls u, K, .inl ⟨rfl, rfl, rfl⟩, .inr ⟨r, hL ▸ hr, hf⟩, fun e he => List.mem_append_left _ he⟩
            · exact ⟨[], z.refs, K', .inr (.inr ⟨j, z, (z.v, K'), hz, hv, rfl, rfl, rfl⟩), .inr ⟨r, hr, hf⟩, fun e he => List.mem_append_right _ he⟩
        · rw [upd_ne hut, upd_ne hut] at hy
          rw [upd_ne hut]
          exact ⟨_, _, _, .inr (.inl ⟨u, hu, hut, rfl, rfl, rfl⟩), hy, fun _ h => h⟩
      · rw [List.getElem?_eraseIdx] at hi hq
        by_cases h3 : i < j
        · rw [if_pos h3] at hi hq
          exact ⟨_, _, _, .inr (.inr ⟨i, y', q, hi, hq, rfl, rfl, rfl⟩), hy, fun _ h => h⟩
        · rw [if_neg h3] at hi hq
          exact ⟨_, _, _, .inr (.inr ⟨i + 1, y', q, hi, hq, rfl, rfl, rfl⟩), hy, fun _ h => h⟩

theorem toks_eq (u : Toks false) : u = u0 (T := T) := by
  obtain ⟨l, l0, l1⟩ := u
  have : l = fun _ => False := funext fun t => eq_false (l1 rfl t)
  subst this
  rfl

theorem fine_init (hne : er ≠ et) : Fine c er et n (World.init c er et : World T) ⟨fun _ => [], []⟩ (fun _ => []) (fun _ => []) [] := by
  have hi : Inv (ts c) (World.init c er et : World T).mem [] (stat T er et) := by
    obtain ⟨Gh, hG⟩ := VecHeap.start_rel (c := c) (E := (E0 : Env Dat T)) (Good := fun _ _ => True) (er := er) (et := et) hne
    have h1 := hG.sound.inv
    have h2 : Gh = [] := by
      have := congrArg List.length hG.objs
      simpa [VecHeap.start] using this.symm
    subst h2
    have h3 : toks (E0 : Env Dat T).gc (VecHeap.start c E0 er et : VecHeap.World T).next (acts ([] : List (Gh T))) = u0 := toks_eq _
    rw [h3] at h1
    exact h1
  refine ⟨.nil, ?_, by simp, rfl, rfl, fun t _ => ⟨rfl, [], by simp, rfl, rfl, rfl⟩, ⟨fun _ _ _ he => (List.not_mem_nil he).elim, fun _ _ _ he => (List.not_mem_nil he).elim⟩, ?_⟩
  rotate_left
  · refine ⟨?_, ?_, ?_⟩
    · intro a cl hcl
      refine ⟨⟨0, 1, []⟩, [], rfl, ?_, rfl⟩
      have hcl : upd (upd (fun _ => none) er (some _)) et (some _) a = some cl := hcl
      by_cases h1 : a = et
      · subst h1; rw [upd_self] at hcl; cases hcl; rfl
      · rw [upd_ne h1] at hcl
        by_cases h2 : a = er
        · subst h2; rw [upd_self] at hcl; cases hcl; rfl
        · rw [upd_ne h2] at hcl; cases hcl
    · rintro O L K (⟨t, ht, rfl, rfl, rfl⟩ | ⟨j, z, q, hz, -⟩) x hx
      · rcases hx with hx | ⟨r, hr, -⟩
        · cases hx
        · cases hr
      · cases hz
    · intro a cl hcl _ x hx
      have hcl : upd (upd (fun _ => none) er (some _)) et (some _) a = some cl := hcl
      by_cases h1 : a = et
      · subst h1; rw [upd_self] at hcl; cases hcl; cases hx
      · rw [upd_ne h1] at hcl
        by_cases h2 : a = er
        · subst h2; rw [upd_self] at hcl; cases hcl; cases hx
        · rw [upd_ne h2] at hcl; cases hcl
  rw [allOf_nil fun _ _ => rfl, allOf_nil fun _ _ => rfl]
  refine ⟨hi, ?_⟩
  intro r hr
  have : r ∈ stat T er et := hr
  simp only [List.mem_cons, List.not_mem_nil, or_false] at this
  rcases this with rfl | rfl <;> rfl

end

/-- every world that threads can get to -/
theorem Reached.fine (hB : 0 < c.B) (hne : er ≠ et) (h : Reached c er et n w) : ∃ s Os Ls zp, Fine c er et n w s Os Ls zp := by
  induction h with
  | init => exact ⟨_, _, _, _, fine_init hne⟩
  | step _ hs ih =>
    obtain ⟨s, Os, Ls, zp, h⟩ := ih
    cases hs with
    | start ht hw hx => exact ⟨_, _, _, _, fine_start hB h ht hw hx⟩
    | run ht hw _ hs =>
      obtain ⟨Os', Ls', h'⟩ := fine_run h ht hw hs
      exact ⟨_, _, _, _, h'⟩
    | load ht hw hm hh hp =>
      obtain ⟨Os', Ls', h'⟩ := fine_load h ht hw hm hh hp
      exact ⟨_, _, _, _, h'⟩
    | finish ht hw =>
      obtain ⟨s', Os', Ls', h'⟩ := fine_finish h ht hw
      exact ⟨_, _, _, _, h'⟩
    | send ht hw hv => exact fine_send h ht hw hv
    | recv ht hw hv => exact fine_recv h ht hw hv

end Thr
