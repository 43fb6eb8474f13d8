import Verif.Threads.Logic
import Verif.Threads.Model
import Verif.VecHeap.Mut

/-!
# Nodes of vectors, in a thread
-/

namespace Thr
open Mm Rrb VecHeap
open Thr.Prog (ret undef)

variable {T β δ : Type}

/-- references are counted; `VecHeap/Sys.lean` says what the nodes stand for -/
def E0 : Env Dat T := ⟨false, fun _ _ => 0⟩
def u0 : Toks (E0 : Env Dat T).gc := ⟨fun _ => False, id, fun _ _ => id⟩
abbrev ts (c : Cfg) : Sys Dat T (Val T) := sys c E0 u0

abbrev Refs (T : Type) := List (Ref (Val T))

/-- a thread among others -/
abbrev TSafe (c : Cfg) (G : Refs T) (p : TM T β) (O : List Nat) (L : Refs T) (m : Mem Dat T) (Q : List Nat → Refs T → Mem Dat T → β → Prop) : Prop :=
  Safe (ts c) room G p O L m Q

abbrev TKept (c : Cfg) (G : Refs T) (O : List Nat) (L : Refs T) (m m' : Mem Dat T) : Prop := Kept (ts c) O (L ++ G) m m'

abbrev TAt (c : Cfg) (G : Refs T) (L : Refs T) (m : Mem Dat T) (p : Nat) (N : Node T) : Prop := At (ts c) m (L ++ G) p (.node N)

noncomputable abbrev rk (c : Cfg) : Ranked (ts c : Sys Dat T (Val T)) := ranked c E0 u0

theorem no_live {c : Cfg} {t : Nat} : ¬ (ts c : Sys Dat T (Val T)).live t := id

/-- a reference -/
abbrev rf (p : Nat) (N : Node T) : Ref (Val T) := ⟨p, .node N, 0, false⟩

theorem bind_assoc {D : Type} {ε : Type} (p : Prog D T β) (f : β → Prog D T δ) (g : δ → Prog D T ε) : (p.bind f).bind g = p.bind fun x => (f x).bind g := by
  induction p with
  | ret b => rfl
  | undef => rfl
  | read p k ih => exact congrArg _ (funext fun d => funext fun e => ih d e)
  | write p f k ih => exact congrArg _ ih
  | inc p k ih => exact congrArg _ ih
  | dec p k ih => exact congrArg _ (funext fun b => ih b)
  | unique p k ih => exact congrArg _ (funext fun b => ih b)
  | alloc n x k ih => exact congrArg _ (funext fun b => ih b)
  | free p n j k ih => exact congrArg _ ih

theorem ret_bind {D : Type} (b : β) (f : β → Prog D T δ) : (Prog.ret b : Prog D T β).bind f = f b := rfl

variable {c : Cfg} {G : Refs T} {O : List Nat} {L : Refs T} {m m' : Mem Dat T} {Q : List Nat → Refs T → Mem Dat T → δ → Prop} {p q i n : Nat}
  {xs : List T} {N : Node T} {Ns : List (Node T)} {ks : List Nat} {t : Nat}

theorem lift_safe {o : Option β} {b : β} {f : β → TM T δ} (h : o = some b) (hs : TSafe c G (f b) O L m Q) : TSafe c G ((liftO o).bind f) O L m Q := by
  rw [h]; exact hs

/-! ### What is in memory -/

/-- an open inner node -/
def icell (c : Cfg) (t : Nat) (ks : List Nat) : Cell Dat T := ⟨1, t, [], .inner (2 ^ c.B) none ks⟩

/-- an open leaf -/
def lcell (c : Cfg) (t : Nat) (xs : List T) : Cell Dat T := ⟨1, t, xs.map .live ++ List.replicate (2 ^ c.BL - xs.length) .raw, .leaf⟩

theorem lcell_get (hi : i < xs.length) : (lcell c t xs).els[i]? = (xs[i]?).map .live := by
  unfold lcell
  rw [List.getElem?_append_left (by simpa using hi), List.getElem?_map]

theorem lcell_raw (hi : xs.length < 2 ^ c.BL) (x : T) : (lcell c t xs).els[xs.length]? = some .raw ∧ (lcell c t xs).els.set xs.length (.live x) = (lcell c t (xs ++ [x])).els := by
  unfold lcell
  obtain ⟨k, hk⟩ : ∃ k, 2 ^ c.BL - xs.length = k + 1 := ⟨2 ^ c.BL - xs.length - 1, by omega⟩
  have hk' : 2 ^ c.BL - (xs ++ [x]).length = k := by rw [List.length_append, List.length_singleton]; omega
  simp only [hk, hk']
  constructor
  · rw [List.getElem?_append_right (by simp)]
    simp [List.replicate_succ]
  · rw [List.set_append_right _ _ (by simp)]
    simp [List.replicate_succ]

theorem at_inner (ha : TAt c G L m p (.inner none Ns)) : ∃ (cl : Cell Dat T) (cap : Nat) (Lc : Refs T), m p = some cl ∧ cl.data = .inner cap none (Lc.map Ref.ptr) ∧
    Lc.map Ref.val = Ns.map Val.node ∧ ∀ x ∈ Lc, x.tok = 0 ∧ x.uniq = false ∧ At (ts c) m (L ++ G) x.ptr x.val := by
  obtain ⟨cl, g', hc, hok, hk⟩ := ha.den.cell
  obtain ⟨cap, ks, h1, _, _, _, _, h2⟩ := okD_inner hok
  have ho : (ts c : Sys Dat T (Val T)).outs cl.data = ks := by show outsD cl.data = ks; rw [h1]; rfl
  rw [ho] at h2 hk
  refine ⟨cl, cap, ks.map fun o => ⟨o, g' o, 0, false⟩, hc, ?_, ?_, ?_⟩
  · rw [h1, List.map_map]; simp [Function.comp_def]
  · rw [← h2, List.map_map]; rfl
  · intro x hx
    obtain ⟨o, ho', rfl⟩ := List.mem_map.mp hx
    exact ⟨rfl, rfl, ha.reach.from (.next .here hc (by rw [ho]; exact ho')), hk o ho', fun _ _ => id⟩

theorem at_leaf (ha : TAt c G L m p (.leaf xs)) : ∃ (cl : Cell Dat T), m p = some cl ∧ cl.data = .leaf ∧ Elems cl.els xs := by
  obtain ⟨cl, g', hc, hok, hk⟩ := ha.den.cell
  obtain ⟨h1, _, h2, _⟩ := okD_leaf hok
  exact ⟨cl, hc, h1, h2⟩

/-- a node that has only one owner -/
theorem ok_inner {cl : Cell Dat T} {Lo : Refs T} (hr : cl.rc = 1) (ho : (ts c : Sys Dat T (Val T)).outs cl.data = Lo.map Ref.ptr) (hok : (ts c : Sys Dat T (Val T)).Ok cl.data cl.els (Lo.map Ref.val) (.node (.inner none Ns))) :
    cl = icell c cl.tok (Lo.map Ref.ptr) ∧ Lo.map Ref.val = Ns.map Val.node ∧ Lo.length ≤ 2 ^ c.B := by
  obtain ⟨cap, ks, h1, h2, h3, h4, h5, h6⟩ := okD_inner hok
  have ho' : outsD cl.data = Lo.map Ref.ptr := ho
  clear ho
  rw [h1] at ho'
  have ho : ks = Lo.map Ref.ptr := ho'
  clear ho'
  have h3 := h3 rfl
  obtain ⟨rc, tok, els, data⟩ := cl
  simp only at hr h1 h2
  subst hr h1 h2 h3
  refine ⟨by rw [ho]; rfl, h6, ?_⟩
  rw [ho, List.length_map] at h4
  exact h4

theorem ok_leaf {cl : Cell Dat T} {Lo : Refs T} (hr : cl.rc = 1) (hok : (ts c : Sys Dat T (Val T)).Ok cl.data cl.els (Lo.map Ref.val) (.node (.leaf xs))) :
    cl = lcell c cl.tok xs ∧ Lo = [] ∧ xs.length ≤ 2 ^ c.BL := by
  obtain ⟨h1, h2, h3, h4⟩ := okD_leaf hok
  replace h4 : cl.els.length = 2 ^ c.BL := h4 rfl
  obtain ⟨rc, tok, els, data⟩ := cl
  simp only at hr h1 h3 h4
  obtain ⟨k, rfl⟩ := h3
  subst hr h1
  rw [List.length_append, List.length_map, List.length_replicate] at h4
  refine ⟨?_, List.map_eq_nil_iff.mp h2, by omega⟩
  unfold lcell
  rw [← h4, Nat.add_sub_cancel_left]

theorem close_inner {f : TM T δ} {Lo : Refs T} (hc : m p = some (icell c t (Lo.map Ref.ptr))) (hv : Lo.map Ref.val = Ns.map Val.node) (hl : Lo.length ≤ 2 ^ c.B)
    (h : TSafe c G f O (rf p (.inner none Ns) :: L) m Q) : TSafe c G f (p :: O) (Lo ++ L) m Q := by
  refine safe_close rfl hc rfl rfl ?_ ?_ h
  · rw [hv]
    refine okD_inner' (fun _ => rfl) (by rw [List.length_map]; exact hl) ?_
    have := congrArg List.length hv
    simpa using this
  · exact fun _ => rfl

theorem close_leaf {f : TM T δ} (hc : m p = some (lcell c t xs)) (hl : xs.length ≤ 2 ^ c.BL) (h : TSafe c G f O (rf p (.leaf xs) :: L) m Q) : TSafe c G f (p :: O) L m Q := by
  have hlen : (lcell c t xs).els.length = 2 ^ c.BL := by
    unfold lcell
    simp only [List.length_append, List.length_map, List.length_replicate]
    omega
  refine safe_close (Lo := []) rfl hc rfl rfl ?_ ?_ h
  · exact okD_leaf' ⟨_, rfl⟩ (fun _ => hlen)
  · exact fun _ => hlen

/-! ### Functions of nodes -/

theorem newInner_safe {f : Nat → TM T δ} (h : ∀ m' a, a ≠ 0 → TKept c G O L m m' → m' a = some (icell c 0 []) → TSafe c G (f a) (a :: O) L m' Q) : TSafe c G ((newInner c).bind f) O L m Q :=
  safe_alloc h

theorem newLeaf_safe {f : Nat → TM T δ} (h : ∀ m' a, a ≠ 0 → TKept c G O L m m' → m' a = some (lcell c 0 []) → TSafe c G (f a) (a :: O) L m' Q) : TSafe c G ((newLeaf c).bind f) O L m Q := by
  refine safe_alloc fun m' a h0 hk hc => h m' a h0 hk ?_
  rw [hc]
  simp [lcell]

theorem inc_safe {f : Unit → TM T δ} (ha : TAt c G L m p N) (h : ∀ m', TKept c G O L m m' → TSafe c G (f ()) O (rf p N :: L) m' Q) : TSafe c G ((inc p).bind f) O L m Q :=
  safe_inc (rk c) rfl ha h

theorem kids_safe {f : List Nat → TM T δ} {cl : Cell Dat T} {cap : Nat} {rel : Option Nat} (ha : Mine (ts c) G O L m p) (hc : m p = some cl) (hd : cl.data = .inner cap rel ks) (h : TSafe c G (f ks) O L m Q) :
    TSafe c G ((kids p).bind f) O L m Q := by
  refine safe_read ha hc ?_
  rw [hd]
  exact h

theorem kid_safe {f : Nat → TM T δ} {cl : Cell Dat T} {cap : Nat} {rel : Option Nat} (ha : Mine (ts c) G O L m p) (hc : m p = some cl) (hd : cl.data = .inner cap rel ks) (hi : ks[i]? = some q)
    (h : TSafe c G (f q) O L m Q) : TSafe c G ((kid p i).bind f) O L m Q := by
  unfold kid
  rw [bind_assoc]
  exact kids_safe ha hc hd (lift_safe hi h)

theorem setKids_safe {f : Unit → TM T δ} (hc : m p = some (icell c t ks)) {ks' : List Nat} (hl : ks'.length ≤ 2 ^ c.B)
    (h : ∀ m', TKept c G O L m m' → m' p = some (icell c t ks') → TSafe c G (f ()) (p :: O) L m' Q) : TSafe c G ((setKids p ks').bind f) (p :: O) L m Q := by
  refine safe_write (x := (.inner (2 ^ c.B) none ks', [])) hc ?_ fun m' hk hc' => h m' hk hc'
  show (if ks'.length ≤ 2 ^ c.B then _ else _) = _
  rw [if_pos hl]; rfl

theorem putKid_safe {f : Unit → TM T δ} {A B : List Nat} {x : Nat} (hc : m p = some (icell c t (A ++ x :: B))) (hi : i = A.length)
    (h : ∀ m', TKept c G O L m m' → m' p = some (icell c t (A ++ q :: B)) → TSafe c G (f ()) (p :: O) L m' Q) : TSafe c G ((putKid p i q).bind f) (p :: O) L m Q := by
  subst hi
  refine safe_write (x := (.inner (2 ^ c.B) none (A ++ q :: B), [])) hc ?_ fun m' hk hc' => h m' hk hc'
  show (if A.length < (A ++ x :: B).length then _ else _) = _
  rw [if_pos (by simp)]
  simp [icell]

theorem pushKid_safe {f : Unit → TM T δ} (hc : m p = some (icell c t ks)) (hi : i = ks.length) (hl : ks.length < 2 ^ c.B)
    (h : ∀ m', TKept c G O L m m' → m' p = some (icell c t (ks ++ [q])) → TSafe c G (f ()) (p :: O) L m' Q) : TSafe c G ((putKid p i q).bind f) (p :: O) L m Q := by
  subst hi
  refine safe_write (x := (.inner (2 ^ c.B) none (ks ++ [q]), [])) hc ?_ fun m' hk hc' => h m' hk hc'
  show (if ks.length < ks.length then _ else if ks.length = ks.length ∧ ks.length < 2 ^ c.B then _ else _) = _
  rw [if_neg (by omega), if_pos ⟨rfl, hl⟩]
  rfl

/-- `inc_nodes` -/
theorem incAll_safe {f : Unit → TM T δ} : ∀ (Lc : Refs T) (L : Refs T) (m : Mem Dat T), (∀ x ∈ Lc, x.tok = 0 ∧ x.uniq = false ∧ At (ts c) m (L ++ G) x.ptr x.val) →
    (∀ m', TKept c G O L m m' → TSafe c G (f ()) O (Lc ++ L) m' Q) → TSafe c G ((incAll (Lc.map Ref.ptr)).bind f) O L m Q
  | [], L, m, _, h => h m .refl
  | x :: Lc, L, m, hx, h => by
    unfold incAll
    rw [List.map_cons]
    simp only
    rw [bind_assoc]
    obtain ⟨h1, h2, h3⟩ := hx x List.mem_cons_self
    obtain ⟨xp, xv, xt, xu⟩ := x
    simp only at h1 h2
    subst h1 h2
    refine safe_inc (rk c) rfl h3 fun m1 hk1 => incAll_safe Lc _ m1 ?_ ?_
    · intro y hy
      obtain ⟨h1, h2, h3⟩ := hx y (List.mem_cons_of_mem _ hy)
      exact ⟨h1, h2, (h3.kept hk1).mono fun r hr => List.mem_cons_of_mem _ hr⟩
    · intro m2 hk2
      exact safe_perm (.refl _) List.perm_middle (h m2 (hk1.trans (Kept.head hk2)))

theorem slice_take {α : Type} {l : List α} (h : n ≤ l.length) : slice l 0 n = some (l.take n) := by
  unfold slice
  rw [if_pos (by omega)]
  simp

/-- `do_copy_inner` -/
theorem doCopyInner_safe {f : Unit → TM T δ} {dst src : Nat} (hc : m dst = some (icell c t [])) (ha : TAt c G L m src (.inner none Ns)) (hn : n ≤ Ns.length) (hb : n ≤ 2 ^ c.B)
    (h : ∀ m' Lc, TKept c G O L m m' → Lc.map Ref.val = (Ns.take n).map Val.node → (∀ x ∈ Lc, x.tok = 0 ∧ x.uniq = false) → m' dst = some (icell c t (Lc.map Ref.ptr)) →
      (∃ cl cap ks, m' src = some cl ∧ cl.data = .inner cap none ks ∧ Lc.map Ref.ptr = ks.take n) → TSafe c G (f ()) (dst :: O) (Lc ++ L) m' Q) :
    TSafe c G ((doCopyInner dst src n).bind f) (dst :: O) L m Q := by
  unfold doCopyInner
  simp only [bind_assoc]
  obtain ⟨cl, cap, Lc, hcs, hd, hv, hx⟩ := at_inner ha
  have hlen : Lc.length = Ns.length := by simpa using congrArg List.length hv
  refine kids_safe (.inr ha.reach) hcs hd (lift_safe (slice_take (by simp; omega)) ?_)
  rw [← List.map_take]
  refine incAll_safe (Lc.take n) L m (fun x hm => hx x (List.mem_of_mem_take hm)) fun m1 hk1 => ?_
  refine setKids_safe ((hk1.2 dst List.mem_cons_self).trans hc) (by simp; omega) fun m2 hk2 hc2 => ?_
  have hkk : TKept c G O L m m2 := (Kept.close' hk1).trans (hk2.mono (fun r hr => by rw [List.append_assoc]; exact List.mem_append_right _ hr) (fun _ h => h))
  obtain ⟨cl2, hcl2, hs2⟩ := hkk.1 src ha.reach cl hcs
  exact h m2 _ hkk (by rw [List.map_take, hv, List.map_take]) (fun x hm => ⟨(hx x (List.mem_of_mem_take hm)).1, (hx x (List.mem_of_mem_take hm)).2.1⟩) hc2
    ⟨cl2, cap, _, hcl2, hs2.1.trans hd, List.map_take⟩

/-- `do_copy_inner_replace` -/
theorem doCopyInnerReplace_safe {f : Unit → TM T δ} {dst src off : Nat} {r : Ref (Val T)} (hc : m dst = some (icell c t [])) (ha : TAt c G L m src (.inner none Ns)) (hr : r.val = .node N) (hn : n = Ns.length)
    (hb : n ≤ 2 ^ c.B) (ho : off < n) (h : ∀ m' Lc, TKept c G O L m m' → Lc.map Ref.val = (Ns.set off N).map Val.node → m' dst = some (icell c t (Lc.map Ref.ptr)) → TSafe c G (f ()) (dst :: O) (Lc ++ L) m' Q) :
    TSafe c G ((doCopyInnerReplace dst src n off r.ptr).bind f) (dst :: O) (r :: L) m Q := by
  unfold doCopyInnerReplace
  simp only [bind_assoc]
  have ha' : TAt c G (r :: L) m src (.inner none Ns) := ha.mono fun x hx => List.mem_cons_of_mem _ hx
  obtain ⟨cl, cap, Lc, hcs, hd, hv, hx⟩ := at_inner ha'
  have hlen : Lc.length = Ns.length := by simpa using congrArg List.length hv
  refine kids_safe (.inr ha'.reach) hcs hd (lift_safe (slice_take (by simp; omega)) ?_)
  rw [List.take_of_length_le (by simp; omega), if_pos (by simp; omega)]
  simp only [bind_assoc]
  rw [← List.map_take, ← List.map_drop]
  refine incAll_safe (Lc.take off) _ m (fun x hm => hx x (List.mem_of_mem_take hm)) fun m1 hk1 => ?_
  refine incAll_safe (Lc.drop (off + 1)) _ m1 (fun x hm => ?_) fun m2 hk2 => ?_
  · obtain ⟨h1, h2, h3⟩ := hx x (List.mem_of_mem_drop hm)
    exact ⟨h1, h2, (h3.kept hk1).mono fun r hr => by rw [List.append_assoc]; exact List.mem_append_right _ hr⟩
  have hk12 : TKept c G (dst :: O) (r :: L) m m2 := hk1.trans (hk2.mono (fun r hr => by rw [List.append_assoc]; exact List.mem_append_right _ hr) fun _ h => h)
  refine setKids_safe ((hk12.2 dst List.mem_cons_self).trans hc) (by simp; omega) fun m3 hk3 hc3 => ?_
  refine safe_perm (L1 := (Lc.set off r) ++ L) (.refl _) ?_ (h m3 (Lc.set off r) ?_ ?_ ?_)
  · rw [List.set_eq_take_append_cons_drop, if_pos (by omega)]
    have : (Lc.drop (off + 1) ++ (Lc.take off ++ r :: L)).Perm (Lc.take off ++ (r :: (Lc.drop (off + 1) ++ L))) := by
      refine (List.perm_append_comm_assoc _ _ _).trans (List.Perm.append_left _ ?_)
      exact List.perm_middle
    simpa using this
  · refine (Kept.head (Kept.close' hk12)).trans (hk3.mono (fun x hx => ?_) fun _ h => h)
    rcases List.mem_append.mp hx with hx | hx
    · simp [hx]
    · simp [hx]
  · rw [List.map_set, hv, List.map_set, hr]
  · rw [hc3, List.map_set]

/-- references differ in what they point to only -/
theorem safe_retok {f : TM T δ} {r : Ref (Val T)} (hr : r.val = .node N) (h : TSafe c G f O (rf r.ptr N :: L) m Q) : TSafe c G f O (r :: L) m Q := by
  refine safe_ghost fun m' O' L' hk hi => ⟨O, rf r.ptr N :: L, ⟨?_, ?_⟩, ?_, h.kept ?_⟩
  · have h1 := Inv.weaken (t := 0) (b := false) hi.1 (fun c' _ hl => hl.elim) (fun h => by cases h)
    rw [hr] at h1
    exact h1
  · intro x hx
    rcases List.mem_cons.mp hx with rfl | hx
    · rfl
    · exact hi.2 x (List.mem_cons_of_mem _ hx)
  · refine ⟨fun _ h => .inl h, ?_, ?_, fun _ h => h.elim⟩
    · rintro x (h | ⟨y, hy, hx⟩)
      · exact .inl (.inl h)
      left; right
      rcases List.mem_cons.mp hy with rfl | hy
      · exact ⟨rf y.ptr N, List.mem_cons_self, hx⟩
      · exact ⟨y, List.mem_cons_of_mem _ hy, hx⟩
    · rintro x (h | ⟨y, hy, hx⟩)
      · exact .inl (.inl h)
      left; right
      rcases List.mem_cons.mp hy with rfl | hy
      · exact ⟨r, List.mem_cons_self, hx⟩
      · exact ⟨y, List.mem_cons_of_mem _ hy, hx⟩
  · refine ⟨?_, hk.2⟩
    rintro x ⟨y, hy, hx⟩ cx hcx
    rcases List.mem_cons.mp hy with rfl | hy
    · exact hk.1 x ⟨r, List.mem_cons_self, hx⟩ cx hcx
    · exact hk.1 x ⟨y, List.mem_cons_of_mem _ hy, hx⟩ cx hcx

/-- what a reference stands for -/
theorem safe_at {f : TM T δ} {r : Ref (Val T)} (hm : r ∈ L ++ G) (hr : r.val = .node N) (h : ∀ m', TKept c G O L m m' → TAt c G L m' r.ptr N → TSafe c G f O L m' Q) : TSafe c G f O L m Q := by
  refine safe_inv fun m' O' L' hk hi => h m' hk ?_
  have ha := hi.1.at (r := r) (by rw [← List.append_assoc]; exact List.mem_append_left _ hm) (fun _ _ => id)
  rw [hr] at ha
  exact ⟨⟨r, hm, .here⟩, ha.den, ha.unowned⟩

/-! ### Releasing nodes -/

theorem destroyN_safe {f : Unit → TM T δ} : ∀ (xs : List T) (i k : Nat) (m : Mem Dat T) (cl : Cell Dat T), m p = some cl → cl.els = List.replicate i .raw ++ (xs.map .live ++ List.replicate k .raw) →
    (∀ m', TKept c G O L m m' → m' p = some { cl with els := List.replicate (i + xs.length + k) .raw } → TSafe c G (f ()) (p :: O) L m' Q) → TSafe c G ((destroyN p i xs.length).bind f) (p :: O) L m Q
  | [], i, k, m, cl, hc, he, h => by
    refine h m .refl ?_
    rw [hc]
    obtain ⟨_, _, els, _⟩ := cl
    simp only at he
    subst he
    simp [List.replicate_append_replicate]
  | x :: xs, i, k, m, cl, hc, he, h => by
    show TSafe c G (((destroy1 p i).bind fun _ => destroyN p (i + 1) xs.length).bind f) (p :: O) L m Q
    rw [bind_assoc]
    have hget : cl.els[i]? = some (.live x) := by
      rw [he, List.getElem?_append_right (by simp)]; simp
    have hset : cl.els.set i .raw = List.replicate (i + 1) .raw ++ (xs.map .live ++ List.replicate k .raw) := by
      rw [he, List.set_append_right _ _ (by simp)]
      simp [List.replicate_succ']
    refine safe_write (x := (cl.data, cl.els.set i .raw)) hc ?_ fun m1 hk1 hc1 => ?_
    · show (match cl.els[i]? with | some (.live _) => _ | some .moved => _ | _ => _) = _
      rw [hget]
    · refine destroyN_safe xs (i + 1) k m1 _ hc1 hset fun m2 hk2 hc2 => h m2 (hk1.trans hk2) ?_
      rw [hc2, List.length_cons]
      simp only
      rw [show i + 1 + xs.length + k = i + (xs.length + 1) + k by omega]

theorem delLeaf_safe {f : Unit → TM T δ} {cl : Cell Dat T} (hc : m p = some cl) (hd : cl.data = .leaf) (he : Elems cl.els xs) (hl : cl.els.length = 2 ^ c.BL)
    (h : ∀ m', TKept c G O L m m' → TSafe c G (f ()) O L m' Q) : TSafe c G ((delLeaf c p xs.length).bind f) (p :: O) L m Q := by
  unfold delLeaf
  rw [bind_assoc]
  obtain ⟨k, hk⟩ := he
  rw [hk, List.length_append, List.length_map, List.length_replicate] at hl
  refine destroyN_safe xs 0 k m cl hc (by simpa using hk) fun m1 hk1 hc1 => ?_
  refine safe_free hc1 ?_ (by show room cl.data = 0; rw [hd]; rfl) fun m2 hk2 => h m2 (hk1.trans hk2)
  simp only
  congr 1
  omega

theorem delInner_safe {f : Unit → TM T δ} {cl : Cell Dat T} (hc : m p = some cl) (hd : cl.data = .inner (2 ^ c.B) none ks) (he : cl.els = [])
    (h : ∀ m', TKept c G O L m m' → TSafe c G (f ()) O L m' Q) : TSafe c G ((delInner c p).bind f) (p :: O) L m Q :=
  safe_free hc (by rw [he]; rfl) (by rw [hd]; rfl) h

theorem ok_inner' {cl : Cell Dat T} {Lo : Refs T} {r : Ref (Val T)} (hr : r.val = .node (.inner none Ns)) (ho : (ts c : Sys Dat T (Val T)).outs cl.data = Lo.map Ref.ptr) (hok : (ts c : Sys Dat T (Val T)).Ok cl.data cl.els (Lo.map Ref.val) r.val) :
    cl.data = .inner (2 ^ c.B) none (Lo.map Ref.ptr) ∧ cl.els = [] ∧ Lo.map Ref.val = Ns.map Val.node := by
  rw [hr] at hok
  obtain ⟨cap, ks, h1, h2, h3, h4, h5, h6⟩ := okD_inner hok
  have ho' : outsD cl.data = Lo.map Ref.ptr := ho
  rw [h1] at ho'
  have ho' : ks = Lo.map Ref.ptr := ho'
  exact ⟨by rw [h1, ho', h3 rfl], h2, h6⟩

theorem ok_leaf' {cl : Cell Dat T} {Lo : Refs T} {r : Ref (Val T)} (hr : r.val = .node (.leaf xs)) (hok : (ts c : Sys Dat T (Val T)).Ok cl.data cl.els (Lo.map Ref.val) r.val) :
    cl.data = .leaf ∧ Lo = [] ∧ Elems cl.els xs ∧ cl.els.length = 2 ^ c.BL := by
  rw [hr] at hok
  obtain ⟨h1, h2, h3, h4⟩ := okD_leaf hok
  exact ⟨h1, List.map_eq_nil_iff.mp h2, h3, h4 rfl⟩

theorem decLeaf_safe {f : Unit → TM T δ} {r : Ref (Val T)} (hr : r.val = .node (.leaf xs)) (h : ∀ m', TKept c G O L m m' → TSafe c G (f ()) O L m' Q) :
    TSafe c G (((dec r.ptr).bind fun last => if last then delLeaf c r.ptr xs.length else ret ()).bind f) O (r :: L) m Q := by
  rw [bind_assoc]
  refine safe_dec rfl (fun m' hk => h m' hk) fun m' cl Lo hk hc ho hok => ?_
  obtain ⟨h1, rfl, h3, h4⟩ := ok_leaf' hr hok
  exact delLeaf_safe hc h1 h3 h4 fun m2 hk2 => h m2 (hk.trans hk2)

theorem decEmpty_safe {f : Unit → TM T δ} {r : Ref (Val T)} (hr : r.val = .node emptyRoot) (h : ∀ m', TKept c G O L m m' → TSafe c G (f ()) O L m' Q) :
    TSafe c G ((decEmpty c r.ptr).bind f) O (r :: L) m Q := by
  unfold decEmpty
  rw [bind_assoc]
  refine safe_dec rfl (fun m' hk => h m' hk) fun m' cl Lo hk hc ho hok => ?_
  obtain ⟨h1, h2, h3⟩ := ok_inner' (Ns := []) hr ho hok
  have : Lo = [] := List.map_eq_nil_iff.mp h3
  subst this
  exact delInner_safe hc h1 h2 fun m2 hk2 => h m2 (hk.trans hk2)

theorem eachDo_safe {g : Nat → Shp → TM T Unit} {R : Shp → Node T → Prop} {f : Unit → TM T δ}
    (hg : ∀ (f : Unit → TM T δ) (m : Mem Dat T) (L : Refs T) (r : Ref (Val T)) (sh : Shp) (N : Node T), r.val = .node N → R sh N → (∀ m', TKept c G O L m m' → TSafe c G (f ()) O L m' Q) →
      TSafe c G ((g r.ptr sh).bind f) O (r :: L) m Q) :
    ∀ (Lc : Refs T) (shs : List Shp) (Ns : List (Node T)) (m : Mem Dat T), Lc.map Ref.val = Ns.map Val.node → List.Forall₂ R shs Ns → (∀ m', TKept c G O L m m' → TSafe c G (f ()) O L m' Q) →
    TSafe c G ((eachDo g (Lc.map Ref.ptr) shs).bind f) O (Lc ++ L) m Q := by
  intro Lc
  induction Lc with
  | nil =>
    intro shs Ns m hv hs h
    have : Ns = [] := List.map_eq_nil_iff.mp hv.symm
    subst this
    cases hs
    exact h m .refl
  | cons r Lc ih =>
    intro shs Ns m hv hs h
    cases Ns with
    | nil => cases hv
    | cons N Ns =>
      simp only [List.map_cons, List.cons.injEq] at hv
      cases hs with
      | cons h1 h2 =>
        show TSafe c G (((g r.ptr _).bind fun _ => eachDo g (Lc.map Ref.ptr) _).bind f) O (r :: (Lc ++ L)) m Q
        rw [bind_assoc]
        refine hg _ m _ r _ N hv.1 h1 fun m1 hk1 => ih _ Ns m1 hv.2 h2 fun m2 hk2 => h m2 (Kept.trans (hk1.mono (fun x hx => ?_) fun _ h => h) hk2)
        rw [List.append_assoc]; exact List.mem_append_right _ hx

/-- `dec_visitor` -/
theorem decV_safe (hB : 0 < c.B) : ∀ (l : Nat) {f : Unit → TM T δ} {O : List Nat} {L : Refs T} {m : Mem Dat T} {r : Ref (Val T)} {sh : Shp} {N : Node T}, r.val = .node N → Fits c l sh N →
    (∀ m', TKept c G O L m m' → TSafe c G (f ()) O L m' Q) → TSafe c G ((decV c l r.ptr sh).bind f) O (r :: L) m Q
  | 0, f, O, L, m, r, sh, N, hr, hf, h => by
    obtain ⟨xs, rfl, h1, h2, _, _⟩ := hf.leaf
    unfold decV
    rw [if_pos h1, h2]
    exact decLeaf_safe hr h
  | l + 1, f, O, L, m, r, sh, N, hr, hf, h => by
    obtain ⟨ds, e, sf, sl, rfl, hk⟩ := hf.kids hB
    obtain ⟨shs, h1, h2⟩ := hk.all
    unfold decV
    rw [bind_assoc]
    refine safe_dec rfl (fun m' hk => h m' hk) fun m1 cl Lo hk1 hc ho hok => ?_
    obtain ⟨h3, h4, h5⟩ := ok_inner' hr ho hok
    simp only [ret_bind, if_true, bind_assoc]
    refine lift_safe h1 (kids_safe (.inl List.mem_cons_self) hc h3 ?_)
    refine eachDo_safe (R := Fits c l) (fun f m L r sh N a b h => decV_safe hB l a b h) Lo shs _ m1 h5 h2 fun m2 hk2 => ?_
    refine delInner_safe ((hk2.2 _ List.mem_cons_self).trans hc) h3 h4 fun m3 hk3 => h m3 ?_
    exact (hk1.trans (Kept.close' hk2)).trans hk3

/-! ### Leaves -/

theorem readEl_safe {f : T → TM T δ} {cl : Cell Dat T} {x : T} (ha : Mine (ts c) G O L m p) (hc : m p = some cl) (hx : cl.els[i]? = some (.live x)) (h : TSafe c G (f x) O L m Q) :
    TSafe c G ((readEl p i).bind f) O L m Q := by
  refine safe_read ha hc ?_
  simp only [hx]
  exact h

theorem construct_safe {f : Unit → TM T δ} {x : T} (hc : m p = some (lcell c t xs)) (hi : i = xs.length) (hl : xs.length < 2 ^ c.BL)
    (h : ∀ m', TKept c G O L m m' → m' p = some (lcell c t (xs ++ [x])) → TSafe c G (f ()) (p :: O) L m' Q) : TSafe c G ((construct p i x).bind f) (p :: O) L m Q := by
  subst hi
  obtain ⟨h1, h2⟩ := lcell_raw (c := c) (t := t) hl x
  refine safe_write (x := (.leaf, (lcell c t (xs ++ [x])).els)) hc ?_ fun m' hk hc' => h m' hk hc'
  show (match (lcell c t xs).els[xs.length]? with | some .raw => _ | _ => _) = _
  rw [h1]
  simp only [h2]
  rfl

/-- a leaf that may be read -/
theorem Elems.live {els : List (Slot T)} {x : T} (h : Elems els xs) (hx : xs[i]? = some x) : els[i]? = some (.live x) := by
  rw [h.get (List.getElem?_eq_some_iff.mp hx).1, hx]; rfl

theorem uninitCopy_safe {f : Unit → TM T δ} {src dst : Nat} : ∀ (n : Nat) (ys : List T) (m : Mem Dat T) (cl : Cell Dat T), Mine (ts c) G O L m src → m src = some cl → Elems cl.els xs → m dst = some (lcell c t ys) →
    (ys = xs.take ys.length) → ys.length + n ≤ xs.length → xs.length ≤ 2 ^ c.BL →
    (∀ m', TKept c G O L m m' → m' dst = some (lcell c t (xs.take (ys.length + n))) → TSafe c G (f ()) (dst :: O) L m' Q) → TSafe c G ((uninitCopy src dst ys.length n).bind f) (dst :: O) L m Q
  | 0, ys, m, cl, ha, hc, he, hd, hy, hn, hl, h => by
    refine h m .refl ?_
    rw [hd, Nat.add_zero, ← hy]
  | n + 1, ys, m, cl, ha, hc, he, hd, hy, hn, hl, h => by
    show TSafe c G (((readEl src ys.length).bind fun v => (construct dst ys.length v).bind fun _ => uninitCopy src dst (ys.length + 1) n).bind f) (dst :: O) L m Q
    simp only [bind_assoc]
    obtain ⟨x, hx⟩ : ∃ x, xs[ys.length]? = some x := ⟨_, List.getElem?_eq_getElem (by omega)⟩
    refine readEl_safe (ha.imp (List.mem_cons_of_mem _) id) hc (Elems.live he hx) ?_
    refine construct_safe hd rfl (by omega) fun m1 hk1 hd1 => ?_
    obtain ⟨cl1, hc1, hs1⟩ := same_of_kept hk1 ha hc
    have hlen : (ys ++ [x]).length = ys.length + 1 := by simp
    have hy1 : ys ++ [x] = xs.take (ys ++ [x]).length := by
      rw [hlen, List.take_add_one, hx, ← hy]; rfl
    rw [← hlen]
    refine uninitCopy_safe n (ys ++ [x]) m1 cl1 (ha.kept hk1) hc1 (by rw [hs1.2.1]; exact he) hd1 hy1 (by omega) hl fun m2 hk2 hd2 => h m2 (hk1.trans hk2) ?_
    rw [hd2, hlen, show ys.length + 1 + n = ys.length + (n + 1) by omega]

/-- `copy_leaf` -/
theorem copyLeaf_safe {f : Nat → TM T δ} {src : Nat} (ha : TAt c G L m src (.leaf xs)) (hn : n = xs.length) (hl : xs.length ≤ 2 ^ c.BL)
    (h : ∀ m' a, a ≠ 0 → TKept c G O L m m' → m' a = some (lcell c 0 xs) → TSafe c G (f a) (a :: O) L m' Q) : TSafe c G ((copyLeaf c src n).bind f) O L m Q := by
  unfold copyLeaf
  simp only [bind_assoc, ret_bind]
  subst hn
  refine newLeaf_safe fun m1 a h0 hk1 hd1 => ?_
  have ha1 : TAt c G L m1 src (.leaf xs) := ha.kept hk1
  obtain ⟨cl, hc, _, he⟩ := at_leaf ha1
  refine uninitCopy_safe xs.length [] m1 cl (.inr ha1.reach) hc he hd1 rfl (by simp) hl fun m2 hk2 hd2 => h m2 a h0 (hk1.trans hk2) ?_
  rw [hd2]; simp

/-- `x = fn(std::move(x))` -/
theorem applyEl_safe {f : Unit → TM T δ} {fn : T → T} {x : T} (hc : m p = some (lcell c t xs)) (hx : xs[i]? = some x)
    (h : ∀ m', TKept c G O L m m' → m' p = some (lcell c t (xs.set i (fn x))) → TSafe c G (f ()) (p :: O) L m' Q) : TSafe c G ((applyEl fn p i).bind f) (p :: O) L m Q := by
  have hi : i < xs.length := (List.getElem?_eq_some_iff.mp hx).1
  have hget : (lcell c t xs).els[i]? = some (.live x) := by rw [lcell_get hi, hx]; rfl
  have hil : i < (lcell c t xs).els.length := (List.getElem?_eq_some_iff.mp hget).1
  unfold applyEl
  refine safe_read (.inl List.mem_cons_self) hc ?_
  simp only [hget, ret_bind]
  refine safe_write (x := (.leaf, (lcell c t xs).els.set i .moved)) hc ?_ fun m1 hk1 hc1 => ?_
  · show (match (lcell c t xs).els[i]? with | some (.live _) => _ | _ => _) = _
    rw [hget]
    rfl
  · refine safe_write (x := (.leaf, (lcell c t (xs.set i (fn x))).els)) hc1 ?_ fun m2 hk2 hc2 => h m2 (hk1.trans hk2) hc2
    have h1 : ((lcell c t xs).els.set i .moved)[i]? = some .moved := by simp [hil]
    show (match ((lcell c t xs).els.set i .moved)[i]? with | some .moved => _ | _ => _) = _
    rw [h1]
    simp only [List.set_set]
    unfold lcell
    simp only [List.length_set]
    rw [List.set_append_left _ _ (by simpa using hi), List.map_set]

end Thr
