import Verif.Mem.Shared
import Verif.VecHeap.Sys
import Verif.VecHeap.Shapes

/-!
# Releasing nodes
-/

namespace VecHeap
open Mm Rrb

variable {T : Type} {c : Cfg} {E : Env Dat T} {u : Toks E.gc} {O : List Nat} {L : List (Ref (Val T))}

theorem live_there (xs : List T) : ∀ x ∈ xs.map Slot.live, x.there = true := by
  intro x hx
  obtain ⟨v, _, rfl⟩ := List.mem_map.mp hx
  rfl

section
variable {s : St Dat T} {p n : Nat} {xs : List T} {Ns : List (Node T)} {ks : List Nat} {cl : Cell Dat T} {r : Ref (Val T)}

theorem liftO_eq {β : Type} {o : Option β} {b : β} (h : o = some b) : (liftO o : HM T β) s = .ok s b := by rw [h]; rfl

/-- what releasing something does: nothing, to the rest -/
def Gone (c : Cfg) (E : Env Dat T) (u : Toks E.gc) (O : List Nat) (L : List (Ref (Val T))) (m m' : Mem Dat T) : Prop :=
  Inv (sys c E u) m' O L ∧ Kept (sys c E u) O L m m'

theorem Kept.write {m : Mem Dat T} (h : Inv (sys c E u) m (p :: O) L) (x : Option (Cell Dat T)) : Kept (sys c E u) O L m (upd m p x) :=
  Kept.upd h (.inl List.mem_cons_self) (List.nodup_cons.mp h.open_nodup).1 x

theorem dealloc_open (h : Inv (sys c E u) s.mem (p :: O) L) (hc : s.mem p = some cl) {n j : Nat} (hn : cl.els = List.replicate n .raw) (hj : room cl.data = j) :
    Out (dealloc room p n j s) (fun s' _ => Gone c E u O L s.mem s'.mem) (fun _ => False) := by
  rw [dealloc_eq hc hn hj]
  exact ⟨h.free, Kept.write h _⟩

theorem delLeaf_there (h : Inv (sys c E u) s.mem (p :: O) L) (hc : s.mem p = some cl) (hd : cl.data = .leaf) {mid : List (Slot T)} {k : Nat} (hk : cl.els = mid ++ List.replicate k .raw)
    (ht : ∀ x ∈ mid, x.there = true) (hn : mid.length = n) (hl : cl.els.length = if E.gc && cl.tok != 0 then 2 ^ c.BL else leafRoom c E n) :
    Out (delLeaf c E p n s) (fun s' _ => Gone c E u O L s.mem s'.mem) (fun _ => False) := by
  unfold delLeaf
  rw [bind_ok (destroyN_eq mid [] (List.replicate k .raw) 0 n s cl hc (by simpa using hk) rfl hn.symm ht)]
  rw [bind_ok (cell_eq upd_self), ← hl]
  refine out_mono (dealloc_open (s := { s with mem := _ }) (h.write List.mem_cons_self _) upd_self ?_ ?_) ?_ (fun _ h => h)
  · rw [hk]; simp [hn]
  · show room cl.data = 0
    rw [hd]; rfl
  · intro s' _ hg
    exact ⟨hg.1, (Kept.write h _).trans hg.2⟩

theorem delLeaf_open (h : Inv (sys c E u) s.mem (p :: O) L) (hc : s.mem p = some cl) (hd : cl.data = .leaf) (hx : Elems cl.els xs) (hn : xs.length = n)
    (hl : cl.els.length = if E.gc && cl.tok != 0 then 2 ^ c.BL else leafRoom c E n) :
    Out (delLeaf c E p n s) (fun s' _ => Gone c E u O L s.mem s'.mem) (fun _ => False) := by
  obtain ⟨k, hk⟩ := hx
  exact delLeaf_there h hc hd hk (live_there _) (by simp [hn]) hl

theorem delInner_open (h : Inv (sys c E u) s.mem (p :: O) L) (hc : s.mem p = some cl) {cap : Nat} {rel : Option Nat} (hd : cl.data = .inner cap rel ks) (he : cl.els = [])
    (hcap : cap = if E.gc && cl.tok != 0 then 2 ^ c.B else innerRoom c E n) :
    Out (delInner c E p n s) (fun s' _ => Gone c E u O L s.mem s'.mem) (fun _ => False) := by
  unfold delInner
  rw [bind_ok (cell_eq hc), ← hcap]
  exact dealloc_open h hc (by rw [he]; rfl) (by rw [hd]; rfl)

/-- releasing a reference: `f` takes the node apart, if it was the last one -/
theorem dec_ref {f : HM T Unit} (h : Inv (sys c E u) s.mem O (r :: L))
    (hf : ∀ (s1 : St Dat T) (cl : Cell Dat T) (Lo : List (Ref (Val T))), E.gc = false → s1.mem r.ptr = some cl → outsD cl.data = Lo.map Ref.ptr →
      okD c E.gc cl.data cl.els (Lo.map Ref.val) r.val → Inv (sys c E u) s1.mem (r.ptr :: O) (Lo ++ L) →
      Out (f s1) (fun s' _ => Gone c E u O L s1.mem s'.mem) (fun _ => False)) :
    Out (((dec E r.ptr).bind fun last => if last then f else M.ret ()) s) (fun s' _ => Gone c E u O L s.mem s'.mem) (fun _ => False) := by
  obtain ⟨cl, _, hc, _, _, _, hrc, hO⟩ := h.look (List.mem_cons_self (a := r))
  by_cases hg : E.gc = true
  · rw [bind_ok (dec_gc hg hc)]
    have := h.drop hc (fun hf => by rw [show (sys c E u).gc = E.gc from rfl, hg] at hf; cases hf)
    rw [show (sys c E u).gc = E.gc from rfl, hg, if_pos rfl] at this
    exact ⟨this, .refl⟩
  · have hg : E.gc = false := by simpa using hg
    have hpos := hrc hg
    rw [bind_ok (dec_rc hg hc hpos)]
    by_cases h1 : cl.rc = 1
    · rw [if_pos (by simp [h1])]
      obtain ⟨Lo, ho, hok, _, hi⟩ := h.open_ hc (.inl ⟨hg, h1⟩)
      have hi' : Inv (sys c E u) (upd s.mem r.ptr (some { cl with rc := cl.rc - 1 })) (r.ptr :: O) (Lo ++ L) := hi.write List.mem_cons_self _
      refine out_mono (hf { s with mem := _ } { cl with rc := cl.rc - 1 } Lo hg upd_self ho hok hi') ?_ (fun _ h => h)
      intro s' _ hG
      refine ⟨hG.1, Kept.trans ?_ hG.2⟩
      exact (Kept.write hi _).mono (fun x hx => List.mem_append_right _ hx) (fun _ h => h)
    · rw [if_neg (by simp [h1])]
      have := h.drop hc (fun _ => by omega)
      rw [show (sys c E u).gc = E.gc from rfl, hg] at this
      simp only [Bool.false_eq_true, if_false] at this
      refine ⟨this, ?_⟩
      refine ⟨?_, ?_⟩
      · intro q _ cq hq
        by_cases he : q = r.ptr
        · subst he
          rw [hc] at hq; cases hq
          exact ⟨_, upd_self, rfl, rfl, rfl⟩
        · exact ⟨cq, by show upd s.mem _ _ _ = _; rw [upd_ne he]; exact hq, .rfl'⟩
      · intro a ha
        show upd s.mem _ _ _ = _
        rw [upd_ne]
        rintro rfl
        exact hO ha

theorem kids_eq {cap : Nat} {rel : Option Nat} (hc : s.mem p = some cl) (hd : cl.data = .inner cap rel ks) : kids p s = .ok s ks := by
  unfold kids
  rw [bind_ok (cell_eq hc), hd]; rfl

/-- `each` on references -/
theorem eachDo_out {f : Nat → Shp → HM T Unit} {R : Shp → Node T → Prop} {Q : List (Ref (Val T))}
    (hf : ∀ (s : St Dat T) (L : List (Ref (Val T))) (r : Ref (Val T)) (sh : Shp) (N : Node T), r.val = .node N → R sh N → Inv (sys c E u) s.mem O (r :: L) →
      Out (f r.ptr sh s) (fun s' _ => Gone c E u O L s.mem s'.mem) (fun _ => False)) :
    ∀ (Lc : List (Ref (Val T))) (shs : List Shp) (Ns : List (Node T)) (s : St Dat T), Lc.map Ref.val = Ns.map Val.node → List.Forall₂ R shs Ns →
    Inv (sys c E u) s.mem O (Lc ++ Q) → Out (eachDo f (Lc.map Ref.ptr) shs s) (fun s' _ => Gone c E u O Q s.mem s'.mem) (fun _ => False) := by
  intro Lc
  induction Lc with
  | nil =>
    intro shs Ns s hv hs h
    have : Ns = [] := List.map_eq_nil_iff.mp hv.symm
    subst this
    cases hs
    exact ⟨h, .refl⟩
  | cons r Lc ih =>
    intro shs Ns s hv hs h
    cases Ns with
    | nil => cases hv
    | cons N Ns =>
      simp only [List.map_cons, List.cons.injEq] at hv
      cases hs with
      | cons h1 h2 =>
        refine out_bind (hf s _ r _ N hv.1 h1 h) ?_
        intro s1 _ hg
        refine out_mono (ih _ Ns s1 hv.2 h2 hg.1) ?_ (fun _ h => h)
        intro s2 _ hg2
        exact ⟨hg2.1, (hg.2.mono (fun x hx => List.mem_append_right _ hx) (fun _ h => h)).trans hg2.2⟩

theorem leafRoom_rc (hg : E.gc = false) : leafRoom c E n = 2 ^ c.BL := by unfold leafRoom; rw [hg]; rfl
theorem innerRoom_rc (hg : E.gc = false) : innerRoom c E n = 2 ^ c.B := by unfold innerRoom; rw [hg]; rfl

/-- `dec_leaf` of a leaf, also of the empty one -/
theorem decLeaf_out (hr : r.val = .node (.leaf xs)) (hn : xs.length = n) (h : Inv (sys c E u) s.mem O (r :: L)) :
    Out (decLeaf c E r.ptr n s) (fun s' _ => Gone c E u O L s.mem s'.mem) (fun _ => False) := by
  unfold decLeaf decV
  rw [if_pos (show (Shp.leafSub n).isLeaf = true from rfl)]
  refine dec_ref h ?_
  intro s1 cl Lo hg hc ho hok hi
  rw [hr] at hok
  obtain ⟨h1, h2, h3, h4⟩ := okD_leaf hok
  have : Lo = [] := List.map_eq_nil_iff.mp h2
  subst this
  refine delLeaf_open hi hc h1 h3 hn ?_
  rw [h4 hg, hg, leafRoom_rc hg]; rfl

/-- `dec_empty_regular` -/
theorem decEmpty_out (hr : r.val = .node emptyRoot) (h : Inv (sys c E u) s.mem O (r :: L)) :
    Out (decEmpty c E r.ptr s) (fun s' _ => Gone c E u O L s.mem s'.mem) (fun _ => False) := by
  unfold decEmpty
  refine dec_ref h ?_
  intro s1 cl Lo hg hc ho hok hi
  rw [hr] at hok
  obtain ⟨cap, ks, h1, h2, h3, h4, h5, h6⟩ := okD_inner hok
  have : Lo = [] := List.map_eq_nil_iff.mp h6
  subst this
  refine delInner_open hi hc h1 h2 ?_
  rw [h3 hg, hg, innerRoom_rc hg]; rfl

/-- `dec_visitor` -/
theorem decV_out (hB : 0 < c.B) : ∀ (l : Nat) (O : List Nat) (L : List (Ref (Val T))) (s : St Dat T) (r : Ref (Val T)) (sh : Shp) (N : Node T), r.val = .node N → Fits c l sh N →
    Inv (sys c E u) s.mem O (r :: L) → Out (decV c E l r.ptr sh s) (fun s' _ => Gone c E u O L s.mem s'.mem) (fun _ => False)
  | 0, O, L, s, r, sh, N, hr, hf, h => by
    obtain ⟨xs, rfl, h1, h2, _, _⟩ := hf.leaf
    have := decLeaf_out hr h2.symm h
    unfold decLeaf decV at this
    rw [if_pos (show (Shp.leafSub _).isLeaf = true from rfl)] at this
    unfold decV
    rw [if_pos h1]
    exact this
  | l + 1, O, L, s, r, sh, N, hr, hf, h => by
    obtain ⟨ds, e, sf, sl, rfl, hk⟩ := hf.kids hB
    obtain ⟨shs, h1, h2⟩ := hk.all
    unfold decV
    refine dec_ref h ?_
    intro s1 cl Lo hg hc ho hok hi
    rw [hr] at hok
    obtain ⟨cap, ks, h3, h4, h5, h6, h7, h8⟩ := okD_inner hok
    rw [bind_ok (liftO_eq h1), bind_ok (kids_eq hc h3)]
    rw [h3] at ho
    have ho : ks = Lo.map Ref.ptr := ho
    rw [ho]
    refine out_bind (eachDo_out (R := Fits c l) (fun s L r sh N a b h => decV_out hB l _ L s r sh N a b h) Lo shs _ s1 h8 h2 hi) ?_
    intro s2 _ hg2
    have hc2 : s2.mem r.ptr = some cl := (hg2.2.2 r.ptr List.mem_cons_self).trans hc
    refine out_mono (delInner_open hg2.1 hc2 h3 h4 ?_) ?_ (fun _ h => h)
    · rw [h5 hg, hg, innerRoom_rc hg]; rfl
    · intro s3 _ hg3
      exact ⟨hg3.1, (hg2.2.mono (fun _ h => h) (fun _ h => List.mem_cons_of_mem _ h)).trans hg3.2⟩

/-- releasing the children on the right -/
theorem decRest_out (hB : 0 < c.B) {l : Nat} {sh : Shp} {Ns : List (Node T)} (hf : Fits c (l + 1) sh (.inner none Ns)) (hn0 : 0 < n) (hn : n ≤ Ns.length) {cap : Nat} {Lk Lc : List (Ref (Val T))}
    (hp : p ∈ O) (hc : s.mem p = some cl) (hd : cl.data = .inner cap none ks) (hks : ks = Lk.map Ref.ptr ++ Lc.map Ref.ptr) (hlk : Lk.length = n) (hv : Lc.map Ref.val = (Ns.drop n).map Val.node)
    (h : Inv (sys c E u) s.mem O (Lc ++ L)) :
    Out (decRest c E l p sh n s) (fun s' _ => Gone c E u O L s.mem s'.mem) (fun _ => False) := by
  obtain ⟨ds, e, sf, sl, h0, hk⟩ := hf.kids hB
  cases h0
  obtain ⟨shs, h1, h2⟩ := hk.rest hn0 (by simpa using hn)
  unfold decRest
  rw [bind_ok (liftO_eq h1), bind_ok (kids_eq hc hd), hks, List.drop_left' (by simpa using hlk)]
  exact eachDo_out (R := Fits c l) (fun s L r sh N a b h => decV_out hB l _ L s r sh N a b h) Lc shs _ s hv h2 h

end
end VecHeap
