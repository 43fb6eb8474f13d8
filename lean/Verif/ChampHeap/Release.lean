import Verif.ChampHeap.Coll

/-!
# Releasing nodes
-/

namespace ChampHeap
open Mm Champ

variable {w : Nat} {T : Type} {E : Env (Dat w) T} {k : Toks E.gc} {O : List Nat} {L : List (Ref (Val w T))}

/-- a tree with collision nodes `d` levels down -/
def Shape : Nat → Node w T → Prop
  | 0, .collision _ => True
  | 0, .inner .. => False
  | _ + 1, .collision _ => False
  | d + 1, .inner _ _ _ Ns => ∀ N ∈ Ns, Shape d N

section
variable {s : St (Dat w) T} {p : Nat} {nm dm : BitVec w} {xs : List T} {Ns : List (Node w T)} {vo : Option Nat} {cs : List Nat}

/-- what releasing something does: nothing, to the rest -/
def Gone (E : Env (Dat w) T) (k : Toks E.gc) (O : List Nat) (L : List (Ref (Val w T))) (m m' : Mem (Dat w) T) : Prop :=
  Inv (sys E k) m' O L ∧ Kept (sys E k) O L m m'

theorem dealloc_open {c : Cell (Dat w) T} (h : Inv (sys E k) s.mem (p :: O) L) (hc : s.mem p = some c) {n j : Nat} (hn : c.els = List.replicate n .raw) (hj : room c.data = j) :
    Out (dealloc room p n j s) (fun s' _ => Gone E k O L s.mem s'.mem) (fun _ => False) := by
  rw [dealloc_eq hc hn hj]
  exact ⟨h.free, Kept.write h _⟩

theorem destroy_open {c : Cell (Dat w) T} (h : Inv (sys E k) s.mem (p :: O) L) (hc : s.mem p = some c) (hr : room c.data = 0) {n : Nat} (hn : c.els.length = n) (ht : ∀ x ∈ c.els, x.there = true) :
    Out (((destroyN p 0 n).bind fun _ => deallocEls p n) s) (fun s' _ => Gone E k O L s.mem s'.mem) (fun _ => False) := by
  rw [bind_ok (destroyN_eq c.els [] [] 0 n s c hc (by simp) rfl hn.symm ht)]
  unfold deallocEls
  refine out_mono (dealloc_open (s := { s with mem := _ }) (h.write List.mem_cons_self _) upd_self (by simp) hr) ?_ (fun _ h => h)
  intro s' _ hg
  exact ⟨hg.1, (Kept.write h _).trans hg.2⟩

theorem deleteValues_open {c : Cell (Dat w) T} (h : Inv (sys E k) s.mem (p :: O) L) (hc : s.mem p = some c) (hd : c.data = .vals) {n : Nat} (hn : c.els.length = n) (ht : ∀ x ∈ c.els, x.there = true) :
    Out (deleteValues p n s) (fun s' _ => Gone E k O L s.mem s'.mem) (fun _ => False) :=
  destroy_open h hc (by rw [hd]; rfl) hn ht

theorem deleteCollision_open {c : Cell (Dat w) T} (h : Inv (sys E k) s.mem (p :: O) L) (hc : s.mem p = some c) {n : Nat} (hd : c.data = .coll n) (hn : c.els.length = n) (ht : ∀ x ∈ c.els, x.there = true) :
    Out (deleteCollision p s) (fun s' _ => Gone E k O L s.mem s'.mem) (fun _ => False) := by
  unfold deleteCollision
  rw [bind_ok (collCount_eq hc hd)]
  exact destroy_open h hc (by rw [hd]; rfl) hn ht

/-- releasing a reference: `f` takes the node apart, if it was the last one -/
theorem dec_ref {r : Ref (Val w T)} {f : HM w T Unit} (h : Inv (sys E k) s.mem O (r :: L))
    (hf : ∀ (s1 : St (Dat w) T) (c : Cell (Dat w) T) (Lo : List (Ref (Val w T))), s1.mem r.ptr = some c → outsD c.data = Lo.map Ref.ptr → okD c.data c.els (Lo.map Ref.val) r.val →
      Inv (sys E k) s1.mem (r.ptr :: O) (Lo ++ L) → Out (f s1) (fun s' _ => Gone E k O L s1.mem s'.mem) (fun _ => False)) :
    Out (((dec E r.ptr).bind fun last => if last then f else M.ret ()) s) (fun s' _ => Gone E k O L s.mem s'.mem) (fun _ => False) := by
  obtain ⟨c, _, hc, _, _, _, hrc, hO⟩ := h.look (List.mem_cons_self (a := r))
  cases hg : E.gc with
  | true =>
    rw [bind_ok (dec_gc hg hc)]
    have := h.drop hc (fun hf => by rw [show (sys E k).gc = E.gc from rfl, hg] at hf; cases hf)
    rw [show (sys E k).gc = E.gc from rfl, hg, if_pos rfl] at this
    exact ⟨this, .refl⟩
  | false =>
    have hpos := hrc hg
    rw [bind_ok (dec_rc hg hc hpos)]
    by_cases h1 : c.rc = 1
    · rw [if_pos (by simp [h1])]
      obtain ⟨Lo, ho, hok, _, hi⟩ := h.open_ hc (.inl ⟨hg, h1⟩)
      have hi' : Inv (sys E k) (upd s.mem r.ptr (some { c with rc := c.rc - 1 })) (r.ptr :: O) (Lo ++ L) := hi.write List.mem_cons_self _
      refine out_mono (hf { s with mem := _ } { c with rc := c.rc - 1 } Lo upd_self ho hok hi') ?_ (fun _ h => h)
      intro s' _ hG
      refine ⟨hG.1, Kept.trans ?_ hG.2⟩
      exact (Kept.write hi _).mono (fun x hx => List.mem_append_right _ hx) (fun _ h => h)
    · rw [if_neg (by simp [h1])]
      have := h.drop hc (fun _ => by omega)
      rw [show (sys E k).gc = E.gc from rfl, hg] at this
      simp only [Bool.false_eq_true, if_false] at this
      refine ⟨this, ?_⟩
      refine ⟨?_, ?_⟩
      · intro q _ cq hq
        by_cases he : q = r.ptr
        · subst he
          rw [hc] at hq; cases hq
          exact ⟨_, upd_self, rfl, rfl, rfl⟩
        · exact ⟨cq, by show upd s.mem _ _ _ = _; rw [upd_ne he]; exact hq, .rfl'⟩
      · intro a ha
        show upd s.mem _ _ _ = _
        rw [upd_ne]
        rintro rfl
        exact hO ha

theorem deleteInner_ref {c : Cell (Dat w) T} {Lv : List (Ref (Val w T))} (h : Inv (sys E k) s.mem (p :: O) (Lv ++ L)) (hc : s.mem p = some c) (hd : c.data = .inner ⟨nm, dm, vo, cs⟩)
    (he : c.els = []) (hv : Lv.map Ref.ptr = vo.toList) (hvv : ∀ x ∈ Lv, x.val = .vals xs) (hx : xs.length = popcount dm) (hn : cs.length = popcount nm) :
    Out (deleteInner E p s) (fun s' _ => Gone E k O L s.mem s'.mem) (fun _ => False) := by
  unfold deleteInner
  rw [bind_ok (getI_eq hc hd)]
  simp only
  refine out_bind (Q := fun s' _ => Gone E k (p :: O) L s.mem s'.mem) ?_ ?_
  · cases vo with
    | none =>
      have : Lv = [] := List.map_eq_nil_iff.mp hv
      subst this
      exact ⟨h, .refl⟩
    | some v =>
      cases Lv with
      | nil => cases hv
      | cons r Lv =>
        simp only [Option.toList_some, List.map_cons, List.cons.injEq, List.map_eq_nil_iff] at hv
        obtain ⟨rfl, rfl⟩ := hv
        refine dec_ref h ?_
        intro s1 c1 Lo h1 ho hok hi
        rw [hvv r List.mem_cons_self] at hok
        obtain ⟨h2, h3, h4⟩ := okD_vals hok
        have : Lo = [] := List.map_eq_nil_iff.mp h4
        subst this
        exact deleteValues_open hi h1 h2 (by rw [h3, List.length_map]; exact hx) (by rw [h3]; exact live_there _)
  · intro s1 _ hg
    unfold deallocInner
    have hc1 : s1.mem p = some c := (hg.2.2 p List.mem_cons_self).trans hc
    refine out_mono (dealloc_open hg.1 hc1 (n := 0) (by rw [he]; rfl) (by rw [hd]; exact hn)) ?_ (fun _ h => h)
    intro s' _ hg'
    exact ⟨hg'.1, (hg.2.mono (fun _ h => h) (fun _ h => List.mem_cons_of_mem _ h)).trans hg'.2⟩

theorem deleteDeep_open : ∀ (d p : Nat) (O : List Nat) (L Lo : List (Ref (Val w T))) (s : St (Dat w) T) (c : Cell (Dat w) T) (N : Node w T), Shape d N → s.mem p = some c →
    outsD c.data = Lo.map Ref.ptr → okD c.data c.els (Lo.map Ref.val) (.node N) → Inv (sys E k) s.mem (p :: O) (Lo ++ L) →
    Out (deleteDeep E d p s) (fun s' _ => Gone E k O L s.mem s'.mem) (fun _ => False)
  | 0, p, O, L, Lo, s, c, N, hs, hc, ho, hok, h => by
    cases N with
    | inner => exact hs.elim
    | collision xs =>
      obtain ⟨h1, h2, h3⟩ := okD_coll hok
      have : Lo = [] := List.map_eq_nil_iff.mp h3
      subst this
      exact deleteCollision_open h hc h1 (by rw [h2, List.length_map]) (by rw [h2]; exact live_there _)
  | d + 1, p, O, L, Lo, s, c, N, hs, hc, ho, hok, h => by
    cases N with
    | collision => exact hs.elim
    | inner nm dm xs Ns =>
      obtain ⟨vo, cs, hd, he, hin⟩ := okD_inner hok
      rw [hd] at ho
      obtain ⟨Lv, Lc, rfl, hp⟩ := parts hin ho
      unfold deleteDeep
      rw [bind_ok (getI_eq hc hd)]
      simp only
      rw [bind_ok (liftO_eq (slice_all hin.2.2.1))]
      have hch : ∀ x ∈ Lc, ∃ N ∈ Ns, x.val = .node N := by
        intro x hx
        have : x.val ∈ Ns.map Val.node := by rw [← hp.cval]; exact List.mem_map_of_mem hx
        obtain ⟨N, hN, he⟩ := List.mem_map.mp this
        exact ⟨N, hN, he.symm⟩
      have each_out : ∀ (Lc : List (Ref (Val w T))) (s : St (Dat w) T), (∀ x ∈ Lc, ∃ N, Shape d N ∧ x.val = .node N) → Inv (sys E k) s.mem (p :: O) (Lc ++ (Lv ++ L)) →
          Out (each (fun q => (dec E q).bind fun last => if last then deleteDeep E d q else M.ret ()) (Lc.map Ref.ptr) s) (fun s' _ => Gone E k (p :: O) (Lv ++ L) s.mem s'.mem) (fun _ => False) := by
        intro Lc
        induction Lc with
        | nil => intro s _ h; exact ⟨h, .refl⟩
        | cons r Lc ih =>
          intro s hx h
          obtain ⟨N, hN, hv⟩ := hx r List.mem_cons_self
          refine out_bind (dec_ref h ?_) ?_
          · intro s1 c1 Lo h1 h2 h3 h4
            rw [hv] at h3
            exact deleteDeep_open d r.ptr (p :: O) _ Lo s1 c1 N hN h1 h2 h3 h4
          · intro s1 _ hg
            refine out_mono (ih s1 (fun x hm => hx x (List.mem_cons_of_mem _ hm)) hg.1) ?_ (fun _ h => h)
            intro s2 _ hg2
            exact ⟨hg2.1, (hg.2.mono (fun x hx => List.mem_append_right _ hx) (fun _ h => h)).trans hg2.2⟩
      rw [← hp.cptr]
      refine out_bind (each_out Lc s (fun x hx => by
        obtain ⟨N, hN, hv⟩ := hch x hx
        exact ⟨N, hs N hN, hv⟩) (h.permL (by
          rw [← List.append_assoc]
          exact List.perm_append_comm.append_right L))) ?_
      intro s1 _ hg
      have hc1 : s1.mem p = some c := (hg.2.2 p List.mem_cons_self).trans hc
      refine out_mono (deleteInner_ref hg.1 hc1 hd he hp.vptr (xs := xs) ?_ hin.1 hin.2.2.1) ?_ (fun _ h => h)
      · intro x hx
        have : x.val ∈ vo.toList.map fun _ => Val.vals xs := by rw [← hp.vval]; exact List.mem_map_of_mem hx
        obtain ⟨_, _, he⟩ := List.mem_map.mp this
        exact he.symm
      · intro s2 _ hg2
        exact ⟨hg2.1, (hg.2.mono (fun x hx => List.mem_append_right _ hx) (fun _ h => List.mem_cons_of_mem _ h)).trans hg2.2⟩

/-- taking apart a node with a single reference -/
theorem deleteDeep_uniq {r : Ref (Val w T)} {d : Nat} {N : Node w T} (hu : r.uniq = true) (hv : r.val = .node N) (hs : Shape d N) (h : Inv (sys E k) s.mem O (r :: L)) :
    Out (deleteDeep E d r.ptr s) (fun s' _ => Gone E k O L s.mem s'.mem) (fun _ => False) := by
  obtain ⟨c, _, hc, _⟩ := h.look (List.mem_cons_self (a := r))
  obtain ⟨Lo, ho, hok, _, hi⟩ := h.open_ hc (.inr (.inr hu))
  rw [hv] at hok
  exact deleteDeep_open d r.ptr O L Lo s c N hs hc ho hok hi

theorem release_out {r : Ref (Val w T)} {d : Nat} {N : Node w T} (hv : r.val = .node N) (hs : Shape d N) (h : Inv (sys E k) s.mem O (r :: L)) :
    Out (release E d r.ptr s) (fun s' _ => Gone E k O L s.mem s'.mem) (fun _ => False) := by
  refine dec_ref h ?_
  intro s1 c1 Lo h1 h2 h3 h4
  rw [hv] at h3
  exact deleteDeep_open d r.ptr O L Lo s1 c1 N hs h1 h2 h3 h4

end
end ChampHeap
