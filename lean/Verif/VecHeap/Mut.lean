import Verif.VecHeap.Slice

/-!
# Visitors that change nodes
-/

namespace VecHeap
open Mm Rrb

variable {T : Type} {c : Cfg} {E : Env Dat T} {u : Toks E.gc} {O : List Nat} {L : List (Ref (Val T))}

section
variable {s : St Dat T} {m m' : Mem Dat T} {p q n i : Nat} {xs : List T} {N : Node T} {Ns : List (Node T)} {ks : List Nat} {cl : Cell Dat T} {r : Ref (Val T)} {t e : Nat}

theorem Kept.permL {L' : List (Ref (Val T))} (h : Kept (sys c E u) O L m m') (hp : L.Perm L') : Kept (sys c E u) O L' m m' := h.mono (fun _ hx => hp.mem_iff.mpr hx) (fun _ h => h)

theorem Gone.permL {L' : List (Ref (Val T))} (h : Gone c E u O L m m') (hp : L.Perm L') : Gone c E u O L' m m' := ⟨h.1.permL hp, Kept.permL h.2 hp⟩

/-- a node that may not be changed has no owner -/
theorem at_of_shared (h : Inv (sys c E u) m O L) (hr : r ∈ L) (hc : m r.ptr = some cl) (hm : mutable E e cl = false) (ht : E.gc = true → r.tok = e) : At (sys c E u) m L r.ptr r.val := by
  refine h.at hr ?_
  intro c' hc' hl
  obtain ⟨c'', _, hc'', _, _, h3, _⟩ := h.look hr
  rw [hc] at hc' hc''
  cases hc'
  cases hc''
  have h3 := h3 hl
  have hg := live_gc hl
  unfold mutable at hm
  rw [if_pos hg] at hm
  simp only [beq_eq_false_iff_ne] at hm
  exact hm (h3.trans (ht hg))

/-- other references to a node that may not be changed -/
theorem reach_of_shared (h : Inv (sys c E u) m O (r :: L)) (hc : m r.ptr = some cl) (hm : mutable E e cl = false) (hg : E.gc = false) : Reach (sys c E u) m L r.ptr := by
  obtain ⟨c', _, hc', _, _, _, h0, _⟩ := h.look (List.mem_cons_self (a := r))
  rw [hc] at hc'
  cases hc'
  have h0 := h0 hg
  refine h.shared (ranked c E u) hg hc ?_
  unfold mutable at hm
  rw [hg] at hm
  simp at hm
  omega

theorem mutable_open (he : E.gc = true → u.live e) (hm : mutable E e cl = true) (b : Bool) : ((sys c E u).gc = false ∧ cl.rc = 1) ∨ (sys c E u).live cl.tok ∨ b = true := by
  unfold mutable at hm
  by_cases hg : E.gc = true
  · rw [if_pos hg] at hm
    simp only [beq_iff_eq] at hm
    exact .inr (.inl (by rw [hm]; exact he hg))
  · rw [if_neg hg] at hm
    simp only [beq_iff_eq] at hm
    exact .inl ⟨Bool.eq_false_iff.mpr hg, hm⟩

theorem mutable_tok (hg : E.gc = true) (hm : mutable E e cl = true) : cl.tok = e := by
  unfold mutable at hm
  rw [if_pos hg] at hm
  simpa using hm

theorem mutable_rc (hg : E.gc = false) (hm : mutable E e cl = true) : cl.rc = 1 := by
  unfold mutable at hm
  rw [hg] at hm
  simpa using hm

/-- a node that may be changed -/
theorem open_inner (he : E.gc = true → u.live e) (h : Inv (sys c E u) m O (r :: L)) (hr : r.val = .node (.inner none Ns)) (hc : m r.ptr = some cl) (hm : mutable E e cl = true) :
    ∃ (cap : Nat) (Lo : List (Ref (Val T))), Op c E u m O L r.ptr cl cap Lo Ns ∧ cap = 2 ^ c.B := by
  have htk := h.tk List.mem_cons_self hc
  obtain ⟨Lo, ho, hok, htok, hi⟩ := h.open_ hc (mutable_open he hm _)
  rw [hr] at hok
  obtain ⟨cap, ks, h1, h2, h3, h4, h5, h6⟩ := okD_inner hok
  have ho : outsD cl.data = Lo.map Ref.ptr := ho
  have htk : tokD c cl.tok cl.data cl.els := htk
  rw [h1] at ho htk
  have ho : ks = Lo.map Ref.ptr := ho
  have htk : cl.tok ≠ 0 → cap = 2 ^ c.B := htk
  refine ⟨cap, Lo, ⟨hc, by rw [h1, ho], h2, fun hg => mutable_rc hg hm, h3, htk, ?_, h6, fun _ => htok, hi⟩, ?_⟩
  · rw [ho] at h4
    simpa using h4
  · by_cases hg : E.gc = true
    · refine htk ?_
      rw [mutable_tok hg hm]
      intro h0
      exact u.live0 (h0 ▸ he hg)
    · exact h3 (by simpa using hg)

theorem split_at {α : Type} {l : List α} {j : Nat} {x : α} (h : l[j]? = some x) : ∃ A B, l = A ++ x :: B ∧ A.length = j := by
  obtain ⟨hlt, rfl⟩ := List.getElem?_eq_some_iff.mp h
  refine ⟨l.take j, l.drop (j + 1), ?_, by rw [List.length_take]; omega⟩
  rw [← List.drop_eq_getElem_cons hlt, List.take_append_drop]

theorem putKid_eq {cap : Nat} {rel : Option Nat} {A B : List Nat} {a b j : Nat} (hc : s.mem p = some cl) (hd : cl.data = .inner cap rel (A ++ a :: B)) (hl : (A ++ a :: B).length ≤ cap) (hj : A.length = j) :
    putKid p j b s = .ok { s with mem := upd s.mem p (some { cl with data := .inner cap rel (A ++ b :: B) }) } () := by
  unfold putKid
  rw [bind_ok (kids_eq hc hd), if_pos (by simp; omega)]
  have : (A ++ a :: B).set j b = A ++ b :: B := by
    subst hj
    rw [List.set_append_right _ _ (Nat.le_refl _)]
    simp
  rw [this, setKids_eq hc hd (by simpa using hl)]

variable {cap : Nat} {A B Lo : List (Ref (Val T))} {x y : Ref (Val T)}

/-- another child -/
theorem Op.setKid {L0 : List (Ref (Val T))} {N' : Node T} {j : Nat} (h : Op c E u m O L0 p cl cap (A ++ x :: B) Ns) (hi : Inv (sys c E u) m' (p :: O) (y :: (A ++ B ++ L))) (hy : y.val = .node N') (hty : E.gc = true → y.tok = cl.tok) (hj : A.length = j) :
    Op c E u (upd m' p (some { cl with data := .inner cap none (A.map Ref.ptr ++ y.ptr :: B.map Ref.ptr) })) O L p { cl with data := .inner cap none (A.map Ref.ptr ++ y.ptr :: B.map Ref.ptr) } cap (A ++ y :: B) (Ns.set j N') := by
  rw [show A.map Ref.ptr ++ y.ptr :: B.map Ref.ptr = (A ++ y :: B).map Ref.ptr by simp]
  refine h.put (hi.permL ?_) ?_ ?_ (by simpa using h.len)
  · simp only [List.append_assoc, List.cons_append]
    exact List.perm_middle.symm
  · have hv := h.val
    rw [List.map_set, ← hv, ← hy]
    subst hj
    simp [List.set_append_right]
  · intro hg z hz
    have ht := h.tok hg
    rcases List.mem_append.mp hz with hz | hz
    · exact ht z (List.mem_append_left _ hz)
    · rcases List.mem_cons.mp hz with rfl | hz
      · exact hty hg
      · exact ht z (List.mem_append_right _ (List.mem_cons_of_mem _ hz))

/-- closing a node after a failure -/
theorem Op.gone (h : Op c E u m O L p cl cap Lo Ns) (hg : Gone c E u (p :: O) (Lo ++ L) m m') {b : Bool} (ht : E.gc = true → cl.tok = t) :
    Gone c E u O (⟨p, .node (.inner none Ns), t, b⟩ :: L) m m' := by
  have hop := h.mem (L' := L) hg.1 (hg.2.2 p List.mem_cons_self)
  refine ⟨VecHeap.retok (hop.close (t := t) ht) (fun _ => rfl) b (fun _ => rfl), ?_⟩
  refine Kept.close hg.2 h.cell ?_ rfl
  show outsD cl.data = _
  rw [h.data]; rfl

theorem perm_child (A B : List (Ref (Val T))) (x : Ref (Val T)) (Q : List (Ref (Val T))) : ((A ++ x :: B) ++ Q).Perm (x :: (A ++ B ++ Q)) := by
  simp only [List.append_assoc, List.cons_append]
  exact List.perm_middle

/-- `push_tail_mut_visitor` takes the references to the leaf and to the node -/
theorem pushTailMut_out (hB : 0 < c.B) (hE : E.Fresh) (he : E.gc = true → u.live e) {rt : Ref (Val T)} {Nt : Node T} {ts : Nat} (ht : E.gc = true → e = rt.tok) (hrt : rt.val = .node Nt) :
    ∀ (l : Nat) (O : List Nat) (L : List (Ref (Val T))) (s : St Dat T) (r : Ref (Val T)) (sh : Shp) (N : Node T) (size : Nat) (R : Node T), Fits c (l + 1) sh N → RegPos c l (sh.pos N) N size →
    (els (l + 1) N).length < Rrb.cap c (l + 1) → pushTail c Nt ts (l + 1) (sh.pos N) = some (some R) → r.val = .node N → (E.gc = true → r.tok = e) → Inv (sys c E u) s.mem O (rt :: r :: L) →
    Out (pushTailMut c E e rt.ptr (l + 1) r.ptr sh s) (fun s' q => Inv (sys c E u) s'.mem O (⟨q, .node R, rt.tok, false⟩ :: L) ∧ Kept (sys c E u) O L s.mem s'.mem)
      (fun s' => Gone c E u O (rt :: r :: L) s.mem s'.mem)
  | l, O, L, s, r, sh, N, size, R, hf, hp, hlt, hv, hr, hrt', h => by
    obtain ⟨cl, _, hc, _⟩ := h.look (List.mem_cons_of_mem rt (List.mem_cons_self (a := r)))
    unfold pushTailMut
    rw [bind_ok (canMutate_eq hc)]
    by_cases hm : mutable E e cl = true
    · rw [if_pos hm]
      obtain ⟨ds, d, ni, rfl, hlen, h1, h2, h3, hor⟩ := hf.push hB hp hlt hv
      rw [bind_ok (liftO_eq h1), bind_ok (liftO_eq h2), bind_ok (liftO_eq h3)]
      obtain ⟨cap, Lo, hop, hcap⟩ := open_inner he (h.permL (List.Perm.swap r rt L)) hr hc hm
      have htok : E.gc = true → cl.tok = rt.tok := fun hg => (mutable_tok hg hm).trans (ht hg)
      have hr' : r = ⟨r.ptr, .node (.inner none (ds ++ [d])), r.tok, r.uniq⟩ := by rw [← hr]
      have hthrow : ∀ {m'}, Gone c E u (r.ptr :: O) (Lo ++ rt :: L) s.mem m' → Gone c E u O (rt :: r :: L) s.mem m' := by
        intro m' hg
        have := hop.gone hg (t := r.tok) (b := r.uniq) (fun hg => (mutable_tok hg hm).trans (hrt' hg).symm)
        rw [← hr'] at this
        exact Gone.permL this (List.Perm.swap _ _ _)
      have hsubL : ∀ z ∈ L, z ∈ rt :: (Lo ++ L) := fun z hz => List.mem_cons_of_mem _ (List.mem_append_right _ hz)
      rcases hor with ⟨rfl, hl2, rfl⟩ | ⟨l', sl, R', rfl, rfl, h4, h5, h6, h7, h8, rfl⟩
      · rw [if_neg (by omega)]
        have hlo := hop.length
        simp only [List.length_append, List.length_singleton] at hlo
        refine out_bind (out_mono (makePath_out (own := some e) hE ht hrt l (r.ptr :: O) s (hop.inv.permL List.perm_middle)) (fun _ _ h => h) ?_) ?_
        · intro s' hg
          exact hthrow (Gone.permL hg List.perm_middle.symm)
        · rintro s1 q ⟨hi1, hk1, _⟩
          have hop1 := hop.mem (L' := ⟨q, .node (mkPath l Nt), rt.tok, false⟩ :: L) (hi1.permL List.perm_middle.symm) (hk1.2 _ List.mem_cons_self)
          obtain ⟨cl2, hp2, htk2, hop2, hk2⟩ := hop1.push (n := ds.length + 1) (N := mkPath l Nt) rfl (fun hg => (htok hg).symm) (by omega) (by omega)
          rw [bind_ok hp2]
          refine ⟨VecHeap.retok (hop2.close (t := rt.tok) (fun hg => by rw [htk2]; exact htok hg)) (fun _ => rfl) false (fun h => by cases h), ?_⟩
          exact ((Kept.open hk1).mono hsubL (fun _ h => h)).trans (Kept.tail hk2)
      · rw [if_pos rfl]
        obtain ⟨x, hx, hxv⟩ := nth_ref (j := ds.length) (N := d) hop.val (by simp)
        have hkid := kid_eq hc hop.data (by rw [List.getElem?_map, hx]; rfl)
        obtain ⟨A, B, rfl, hA⟩ := split_at hx
        have hin : Inv (sys c E u) s.mem (r.ptr :: O) (rt :: x :: (A ++ B ++ L)) :=
          (hop.inv.permL List.perm_middle).permL (List.Perm.cons rt (perm_child A B x L))
        refine out_bind (Q := fun s' q => Inv (sys c E u) s'.mem (r.ptr :: O) (⟨q, .node R', rt.tok, false⟩ :: (A ++ B ++ L)) ∧ Kept (sys c E u) (r.ptr :: O) (A ++ B ++ L) s.mem s'.mem) ?_ ?_
        · rw [bind_ok (liftO_eq h4), bind_ok hkid]
          refine out_mono (pushTailMut_out hB hE he ht hrt l' (r.ptr :: O) (A ++ B ++ L) s x sl d size R' h5 h6 h7 h8 hxv (fun hg => (hop.tok hg x (by simp)).trans (mutable_tok hg hm)) hin) (fun _ _ h => h) ?_
          intro s' hg
          exact hthrow (Gone.permL hg <| (List.Perm.cons rt (perm_child A B x L).symm).trans List.perm_middle.symm)
        · rintro s1 q ⟨hi1, hk1⟩
          have hc1 := (hk1.2 r.ptr List.mem_cons_self).trans hc
          have hop2 := hop.setKid (j := ds.length) hi1 rfl (fun hg => (htok hg).symm) hA
          rw [bind_ok (putKid_eq (b := q) hc1 (by rw [hop.data, List.map_append]; rfl) (by simpa using hop.len) (by simpa using hA))]
          have hl := hop.length
          have hB : B = [] := by
            simp only [List.length_append, List.length_cons, List.length_nil, hA] at hl
            exact List.eq_nil_of_length_eq_zero (by omega)
          subst hB
          rw [show (ds ++ [d]).set ds.length R' = ds ++ [R'] by simp] at hop2
          refine ⟨VecHeap.retok (hop2.close (t := rt.tok) htok) (fun _ => rfl) false (fun h => by cases h), ?_⟩
          have hs2 : ∀ z ∈ L, z ∈ A ++ [] ++ L := fun z hz => List.mem_append_right _ hz
          exact (hk1.mono hs2 (fun _ h => List.mem_cons_of_mem _ h)).trans ((Kept.write hi1 _).mono (fun z hz => List.mem_cons_of_mem _ (hs2 z hz)) (fun _ h => h))
    · rw [if_neg hm]
      have hm := Bool.eq_false_iff.mpr hm
      have ha : At (sys c E u) s.mem (r :: L) r.ptr (.node N) := by
        have := at_of_shared h (List.mem_cons_of_mem rt (List.mem_cons_self (a := r))) hc hm hrt'
        rw [hr] at this
        exact ⟨⟨r, List.mem_cons_self, .here⟩, this.den, this.unowned⟩
      refine out_bind (pushTailNew_out (own := some e) hB hE ht hrt l O s r.ptr sh N size R hf hp hlt hv h ha) ?_
      rintro s1 q ⟨hi1, hk1, _⟩
      refine out_bind (out_mono (decV_out hB (l + 1) O _ s1 r sh N hr hf (hi1.permL (List.Perm.swap _ _ _))) (fun _ _ h => h) (fun _ h => h.elim)) ?_
      intro s2 _ hg
      exact ⟨hg.1, (hk1.mono (fun z hz => List.mem_cons_of_mem _ (List.mem_cons_of_mem _ hz)) (fun _ h => h)).trans (Kept.tail hg.2)⟩

/-- memory after a count went down -/
def down (gc : Bool) (m : Mem Dat T) (p : Nat) (cl : Cell Dat T) : Mem Dat T := if gc then m else upd m p (some { cl with rc := cl.rc - 1 })

theorem down_kept (h : Inv (sys c E u) m O (r :: L)) (hc : m r.ptr = some cl) (h2 : E.gc = false → 2 ≤ cl.rc) : Gone c E u O L m (down E.gc m r.ptr cl) := by
  refine ⟨h.drop hc (fun hg => h2 hg), ?_⟩
  unfold down
  split
  · exact .refl
  · obtain ⟨_, _, _, _, _, _, _, hO⟩ := h.look (List.mem_cons_self (a := r))
    refine ⟨?_, ?_⟩
    · intro q _ cq hq
      by_cases he : q = r.ptr
      · subst he
        rw [hc] at hq; cases hq
        exact ⟨_, upd_self, rfl, rfl, rfl⟩
      · exact ⟨cq, by rw [upd_ne he]; exact hq, .rfl'⟩
    · intro a ha
      rw [upd_ne]
      rintro rfl
      exact hO ha

theorem decV_down {l : Nat} {sh : Shp} (hc : s.mem p = some cl) (h2 : E.gc = false → 2 ≤ cl.rc) : decV c E (l + 1) p sh s = .ok { s with mem := down E.gc s.mem p cl } () := by
  unfold decV down
  by_cases hg : E.gc = true
  · rw [bind_ok (dec_gc hg hc), if_pos hg]; rfl
  · have hg : E.gc = false := Bool.eq_false_iff.mpr hg
    have := h2 hg
    rw [bind_ok (dec_rc hg hc (by omega)), if_neg (by simp; omega), hg]
    rfl

/-- a leaf that may be changed -/
theorem open_leaf (he : E.gc = true → u.live e) (h : Inv (sys c E u) m O (r :: L)) (hr : r.val = .node (.leaf xs)) (hc : m r.ptr = some cl) (hm : mutable E e cl = true) :
    cl.data = .leaf ∧ Elems cl.els xs ∧ cl.els.length = 2 ^ c.BL ∧ Inv (sys c E u) m (r.ptr :: O) L := by
  have htk := h.tk List.mem_cons_self hc
  obtain ⟨Lo, ho, hok, htok, hi⟩ := h.open_ hc (mutable_open he hm _)
  rw [hr] at hok
  obtain ⟨h1, h2, h3, h4⟩ := okD_leaf hok
  have htk : tokD c cl.tok cl.data cl.els := htk
  rw [h1] at htk
  have htk : cl.tok ≠ 0 → cl.els.length = 2 ^ c.BL := htk
  have : Lo = [] := List.map_eq_nil_iff.mp h2
  subst this
  refine ⟨h1, h3, ?_, hi⟩
  by_cases hg : E.gc = true
  · refine htk ?_
    rw [mutable_tok hg hm]
    intro h0
    exact u.live0 (h0 ▸ he hg)
  · exact h4 (Bool.eq_false_iff.mpr hg)

/-- closing a leaf after an element changed -/
theorem close_set (h : Inv (sys c E u) m (p :: O) L) (hd : cl.data = .leaf) (hx : Elems cl.els xs) (hrc : E.gc = false → cl.rc = 1) (hl : cl.els.length = 2 ^ c.BL) (ht : E.gc = true → cl.tok = e)
    (hi : i < xs.length) (v : T) : Inv (sys c E u) (upd m p (some { cl with els := cl.els.set i (.live v) })) O (⟨p, .node (.leaf (xs.set i v)), e, false⟩ :: L) :=
  VecHeap.retok (close_leaf (cl := { cl with els := cl.els.set i (.live v) }) (h.write List.mem_cons_self _) upd_self hd (hx.set hi v) hrc (fun _ => by simpa using hl) (fun _ => by simpa using hl) ht) (fun _ => rfl) false (fun h => by cases h)

/-- where an element may be changed -/
def Got (c : Cfg) (E : Env Dat T) (u : Toks E.gc) (e : Nat) (O : List Nat) (L : List (Ref (Val T))) (V : (T → T) → Node T → Prop) (m m' : Mem Dat T) (g : Nat × Nat × Nat) : Prop :=
  ∃ (cl : Cell Dat T) (x : T), m' g.2.1 = some cl ∧ cl.els[g.2.2]? = some (.live x) ∧ ∀ f R, V f R →
    Inv (sys c E u) (upd m' g.2.1 (some { cl with els := cl.els.set g.2.2 (.live (f x)) })) O (⟨g.1, .node R, e, false⟩ :: L) ∧
      Kept (sys c E u) O L m (upd m' g.2.1 (some { cl with els := cl.els.set g.2.2 (.live (f x)) }))

/-- the nodes on the way to an element may be changed in place by `e`, and are not among `O` -/
def Path (c : Cfg) (E : Env Dat T) (m : Mem Dat T) (e : Nat) (O : List Nat) : Nat → Nat → Shp → Nat → Prop
  | 0, p, _, _ => p ∉ O ∧ ∃ cl, m p = some cl ∧ mutable E e cl = true
  | l + 1, p, sh, idx => p ∉ O ∧ ∃ cl, m p = some cl ∧ mutable E e cl = true ∧
      ∃ off sh' q cap tb ks, sh.index c idx = some off ∧ sh.towards c off = some sh' ∧ cl.data = .inner cap tb ks ∧ ks[off]? = some q ∧ Path c E m e O l q sh' idx

/-- the nodes on the way have the same children and owners -/
theorem Path.congr {O' : List Nat} (hO : ∀ a ∈ O', a ∈ O) (h : ∀ a cl, a ∉ O → m a = some cl → mutable E e cl = true → ∃ cl', m' a = some cl' ∧ cl'.rc = cl.rc ∧ cl'.tok = cl.tok ∧ cl'.data = cl.data) :
    ∀ {l p : Nat} {sh : Shp} {idx : Nat}, Path c E m e O l p sh idx → Path c E m' e O' l p sh idx
  | 0, p, sh, idx, hp => by
    obtain ⟨h1, cl, h2, h3⟩ := hp
    obtain ⟨cl', h4, h5, h6, h7⟩ := h p cl h1 h2 h3
    exact ⟨fun h => h1 (hO _ h), cl', h4, by unfold mutable at *; rw [h5, h6]; exact h3⟩
  | l + 1, p, sh, idx, hp => by
    obtain ⟨h1, cl, h2, h3, off, sh', q, cap, tb, ks, k1, k2, k3, k4, k5⟩ := hp
    obtain ⟨cl', h4, h5, h6, h7⟩ := h p cl h1 h2 h3
    exact ⟨fun h => h1 (hO _ h), cl', h4, by unfold mutable at *; rw [h5, h6]; exact h3, off, sh', q, cap, tb, ks, k1, k2, h7.trans k3, k4, Path.congr hO h k5⟩

theorem mutable_intro {cl : Cell Dat T} (hr : E.gc = false → cl.rc = 1) (ht : E.gc = true → cl.tok = e) : mutable E e cl = true := by
  unfold mutable
  by_cases hg : E.gc = true
  · simp [hg, ht hg]
  · simp [hg, hr (by simpa using hg)]

/-- `get_mut_visitor` takes the reference to the node; afterwards all nodes on the way may be changed in place -/
theorem getMut_path (hB : 0 < c.B) (hE : E.Fresh) (he : E.gc = true → u.live e) : ∀ (l : Nat) (O : List Nat) (L : List (Ref (Val T))) (s : St Dat T) (r : Ref (Val T)) (sh : Shp) (N : Node T) (idx : Nat), Fits c l sh N →
    (∀ f, ∃ R, Rrb.updateV c f l (sh.pos N) idx = some R) → r.val = .node N → (E.gc = true → r.tok = e) → Inv (sys c E u) s.mem O (r :: L) →
    Out (getMut c E e l r.ptr sh idx s) (fun s' g => Got c E u e O L (fun f R => Rrb.updateV c f l (sh.pos N) idx = some R) s.mem s'.mem g ∧ Path c E s'.mem e O l g.1 sh idx) (fun s' => Gone c E u O (r :: L) s.mem s'.mem)
  | 0, O, L, s, r, sh, N, idx, hf, hv, hr, hrt, h => by
    obtain ⟨R0, hR0⟩ := hv id
    obtain ⟨xs, off, x, rfl, h1, h2, h3, h4, h5, -⟩ := hf.updLeaf hR0
    have hoff : off < xs.length := (List.getElem?_eq_some_iff.mp h5).1
    have hall : ∀ f R, Rrb.updateV c f 0 (sh.pos (.leaf xs)) idx = some R → R = .leaf (xs.set off (f x)) := by
      intro f R hR
      obtain ⟨xs', off', x', e1, _, _, _, e4, e5, rfl⟩ := hf.updLeaf hR
      cases e1
      rw [h4] at e4
      cases e4
      rw [h5] at e5
      cases e5
      rfl
    obtain ⟨cl, _, hc, _⟩ := h.look (List.mem_cons_self (a := r))
    unfold getMut
    rw [if_pos h1, bind_ok (canMutate_eq hc)]
    by_cases hm : mutable E e cl = true
    · rw [if_pos hm, bind_ok (liftO_eq h4)]
      obtain ⟨hd, hx, hl, hi⟩ := open_leaf he h hr hc hm
      refine ⟨⟨cl, x, hc, by rw [hx.get hoff, h5]; rfl, ?_⟩, Inv.notin_open (O' := [r.ptr]) hi List.mem_cons_self, cl, hc, hm⟩
      intro f R hR
      rw [hall f R hR]
      exact ⟨close_set hi hd hx (fun hg => mutable_rc hg hm) hl (fun hg => mutable_tok hg hm) hoff _, Kept.write hi _⟩
    · rw [if_neg hm, h2]
      have hm := Bool.eq_false_iff.mpr hm
      have ha := at_of_shared h (List.mem_cons_self (a := r)) hc hm hrt
      rw [hr] at ha
      obtain ⟨cl', hc', _, hx, _⟩ := at_leaf h ha
      refine out_bind (out_mono (copyLeafN_out (own := some e) hE h hc' hx (Nat.le_refl _) (Nat.le_refl _) h3) (fun _ _ h => h) (fun _ he => gone_of_eq h he)) ?_
      rintro s1 n ⟨hn, hs1⟩
      rw [List.take_length] at hs1
      have hi1 : Inv (sys c E u) s1.mem (n :: O) (r :: L) := by rw [hs1]; exact h.alloc hn _
      have hk1 : Kept (sys c E u) O (r :: L) s.mem s1.mem := by rw [hs1]; exact Kept.new h hn _
      refine out_bind (out_mono (decV_out hB 0 (n :: O) L s1 r sh _ hr hf hi1) (fun _ _ h => h) (fun _ h => h.elim)) ?_
      intro s2 _ hg
      rw [bind_ok (liftO_eq h4)]
      have hcell : s2.mem n = some (leafCell c E (some e) xs.length xs) := by
        rw [hg.2.2 n List.mem_cons_self, hs1]; exact upd_self
      have hel : Elems (leafCell c E (some e) xs.length xs).els xs := ⟨_, rfl⟩
      have hlen : (leafCell c E (some e) xs.length xs).els.length = 2 ^ c.BL := leafCell_length (Nat.le_refl _) h3
      refine ⟨⟨_, x, hcell, by rw [hel.get hoff, h5]; rfl, ?_⟩, h.fresh_notin hn, _, hcell, mutable_intro (fun _ => rfl) (fun hg => tk_gc hg)⟩
      intro f R hR
      rw [hall f R hR]
      exact ⟨close_set hg.1 rfl hel (fun _ => rfl) hlen (fun hg => tk_gc hg) hoff _, ((Kept.tail hk1).trans (Kept.open hg.2)).trans (Kept.write hg.1 _)⟩
  | l + 1, O, L, s, r, sh, N, idx, hf, hv, hr, hrt, h => by
    obtain ⟨R0, hR0⟩ := hv id
    obtain ⟨Ns, off, x, sh', R0', rfl, h1, h2, h3, h4, h5, h6, h7, h8, -⟩ := hf.upd hB hR0
    have hoff : off < Ns.length := (List.getElem?_eq_some_iff.mp h5).1
    have hall : ∀ f R, Rrb.updateV c f (l + 1) (sh.pos (.inner none Ns)) idx = some R → ∃ R', Rrb.updateV c f l (sh'.pos x) idx = some R' ∧ R = .inner none (Ns.set off R') := by
      intro f R hR
      obtain ⟨Ns', off', x', sh'', R', e0, _, _, _, e4, e5, e6, _, e8, rfl⟩ := hf.upd hB hR
      cases e0
      rw [h4] at e4
      cases e4
      rw [h5] at e5
      cases e5
      rw [h6] at e6
      cases e6
      exact ⟨R', e8, rfl⟩
    have hv' : ∀ f, ∃ R, Rrb.updateV c f l (sh'.pos x) idx = some R := by
      intro f
      obtain ⟨R, hR⟩ := hv f
      obtain ⟨R', hR', _⟩ := hall f R hR
      exact ⟨R', hR'⟩
    obtain ⟨cl, _, hc, _⟩ := h.look (List.mem_cons_self (a := r))
    unfold getMut
    rw [bind_ok (liftO_eq h4), bind_ok (canMutate_eq hc)]
    by_cases hm : mutable E e cl = true
    · rw [if_pos hm]
      obtain ⟨cap, Lo, hop, hcap⟩ := open_inner he h hr hc hm
      obtain ⟨y, hy, hyv⟩ := nth_ref hop.val h5
      rw [bind_ok (liftO_eq h6), bind_ok (kid_eq hc hop.data (by rw [List.getElem?_map, hy]; rfl))]
      obtain ⟨A, B, rfl, hA⟩ := split_at hy
      have hr' : r = ⟨r.ptr, .node (.inner none Ns), r.tok, r.uniq⟩ := by rw [← hr]
      refine out_bind (out_mono (getMut_path hB hE he l (r.ptr :: O) (A ++ B ++ L) s y sh' x idx h7 hv' hyv (fun hg => (hop.tok hg y (by simp)).trans (mutable_tok hg hm)) (hop.inv.permL (perm_child A B y L))) (fun _ _ h => h) ?_) ?_
      · intro s' hg
        have := hop.gone (Gone.permL hg (perm_child A B y L).symm) (t := r.tok) (b := r.uniq) (fun hg => (mutable_tok hg hm).trans (hrt hg).symm)
        rw [← hr'] at this
        exact this
      · rintro s1 ⟨g1, ℓ, j⟩ ⟨⟨cg, xe, hcg, hxe, hg⟩, hpath⟩
        simp only at hcg hxe hg hpath
        obtain ⟨Rx, hRx⟩ := hv' id
        have hne : r.ptr ≠ ℓ := by
          rintro rfl
          have := (hg id Rx hRx).2.2 r.ptr List.mem_cons_self
          rw [upd_self, hc] at this
          have h0 := congrArg (fun o => o.map Cell.els) this
          simp only [Option.map_some, Option.some.injEq] at h0
          rw [hop.els] at h0
          have hj := (List.getElem?_eq_some_iff.mp hxe).1
          have := congrArg List.length h0
          simp at this
          rw [this] at hj
          simp at hj
        have hc1 : s1.mem r.ptr = some cl := by
          have := (hg id Rx hRx).2.2 r.ptr List.mem_cons_self
          rw [upd_ne hne] at this
          exact this.trans hc
        rw [bind_ok (putKid_eq (b := g1) hc1 (by rw [hop.data, List.map_append]; rfl) (by simpa using hop.len) (by simpa using hA))]
        refine ⟨⟨cg, xe, by show upd _ _ _ ℓ = _; rw [upd_ne hne.symm]; exact hcg, hxe, ?_⟩, Inv.notin_open (O' := [r.ptr]) hop.inv List.mem_cons_self, _, upd_self, (by unfold mutable at *; exact hm), off, sh', g1, _, _, _, h4, h6, rfl, (by rw [← hA]; simp), ?_⟩
        rotate_left
        · refine hpath.congr (fun a ha => List.mem_cons_of_mem _ ha) fun a ca ha hca _ => ⟨ca, ?_, rfl, rfl, rfl⟩
          show upd _ _ _ a = _
          rw [upd_ne (by rintro rfl; exact ha List.mem_cons_self)]
          exact hca
        intro f R hR
        obtain ⟨R', hR', rfl⟩ := hall f R hR
        obtain ⟨hi1, hk1⟩ := hg f R' hR'
        have hop2 := hop.setKid hi1 (j := off) rfl (fun hg => (mutable_tok hg hm).symm) hA
        show Inv (sys c E u) (upd (upd s1.mem r.ptr _) ℓ _) O _ ∧ Kept (sys c E u) O L s.mem (upd (upd s1.mem r.ptr _) ℓ _)
        rw [upd_comm hne]
        refine ⟨VecHeap.retok (hop2.close (t := e) (fun hg => mutable_tok hg hm)) (fun _ => rfl) false (fun h => by cases h), ?_⟩
        have hs2 : ∀ z ∈ L, z ∈ A ++ B ++ L := fun z hz => List.mem_append_right _ hz
        exact (hk1.mono hs2 (fun _ h => List.mem_cons_of_mem _ h)).trans ((Kept.write hi1 _).mono (fun z hz => List.mem_cons_of_mem _ (hs2 z hz)) (fun _ h => h))
    · rw [if_neg hm]
      have hm := Bool.eq_false_iff.mpr hm
      have ha := at_of_shared h (List.mem_cons_self (a := r)) hc hm hrt
      rw [hr] at ha
      refine out_bind (out_mono (newInner_out hE h) (fun _ _ h => h) (fun _ he => gone_of_eq h he)) ?_
      rintro s1 n ⟨hn, hs1⟩
      have hop := Op.new h hn 0 (some e)
      rw [← hs1] at hop
      have hk1 : Kept (sys c E u) O (r :: L) s.mem s1.mem := by rw [hs1]; exact Kept.new h hn _
      have ha1 := ha.kept hk1
      obtain ⟨cp1, cap1, Lp, hcp1, hdp1, _⟩ := at_inner hop.inv ha1
      rw [h1]
      refine out_bind (out_mono (copyInner_out' (n := Ns.length) hop ha1 (Nat.le_refl _) h3) (fun _ _ h => h) (fun _ h => h.elim)) ?_
      rintro s2 _ ⟨cl2, Lc, htk2, hop2, hk2, hptr⟩
      rw [List.take_length] at hop2
      have hptr := hptr cp1 cap1 _ hcp1 hdp1
      obtain ⟨cp2, hcp2, hsame⟩ := hk2.1 r.ptr ha1.reach cp1 hcp1
      have hdp2 : cp2.data = .inner cap1 none (Lp.map Ref.ptr) := hsame.1 ▸ hdp1
      obtain ⟨y, hy, hyv⟩ := nth_ref hop2.val h5
      have hkid : (Lp.map Ref.ptr)[off]? = some y.ptr := by
        have := congrArg (fun z => z[off]?) hptr
        simp only [List.getElem?_map, hy, Option.map_some] at this
        rw [List.getElem?_take_of_lt hoff] at this
        exact this.symm
      obtain ⟨A, B, rfl, hA⟩ := split_at hy
      have htok2 : E.gc = true → cl2.tok = e := fun hg => htk2.trans (tk_gc hg)
      -- the element is not in a node with children
      have hapart : ∀ (m3 : Mem Dat T) (g1 ℓ j : Nat), Got c E u e (n :: O) (A ++ B ++ r :: L) (fun f R => Rrb.updateV c f l (sh'.pos x) idx = some R) s2.mem m3 (g1, ℓ, j) →
          n ≠ ℓ ∧ r.ptr ≠ ℓ ∧ m3 n = some cl2 ∧ ∃ cp3, m3 r.ptr = some cp3 ∧ Same cp2 cp3 := by
        rintro m3 g1 ℓ j ⟨cg, xe, hcg, hxe, hg⟩
        simp only at hcg hxe hg
        obtain ⟨Rx, hRx⟩ := hv' id
        obtain ⟨_, hk⟩ := hg id Rx hRx
        have hj := (List.getElem?_eq_some_iff.mp hxe).1
        have hn1 := hk.2 n List.mem_cons_self
        rw [hop2.cell] at hn1
        have hne : n ≠ ℓ := by
          rintro rfl
          rw [upd_self] at hn1
          have h0 := congrArg (fun o => (o.map Cell.els).map List.length) hn1
          simp only [Option.map_some, Option.some.injEq] at h0
          rw [hop2.els] at h0
          simp at h0
          rw [h0] at hj
          simp at hj
        obtain ⟨cp3, hcp3, hs3⟩ := hk.1 r.ptr ⟨r, by simp, .here⟩ cp2 hcp2
        have hep : cp2.els = [] := by
          obtain ⟨ck, Lk, hck, _, hok, _⟩ := hop.inv.kids ha1
          rw [hcp1] at hck
          cases hck
          obtain ⟨_, _, _, e2, _⟩ := okD_inner hok
          rw [hsame.2.1]; exact e2
        have hne2 : r.ptr ≠ ℓ := by
          rintro rfl
          rw [upd_self] at hcp3
          cases hcp3
          have h0 := congrArg List.length hs3.2.1
          rw [hep] at h0
          simp at h0
          rw [h0] at hj
          simp at hj
        rw [upd_ne hne] at hn1
        rw [upd_ne hne2] at hcp3
        exact ⟨hne, hne2, hn1, cp3, hcp3, hs3⟩
      refine out_bind (Q := fun s4 (g : Nat × Nat) => ∃ (m3 : Mem Dat T) (g1 : Nat), s4.mem = upd m3 n (some { cl2 with data := .inner (capI c E (some e) 0) none (A.map Ref.ptr ++ g1 :: B.map Ref.ptr) }) ∧
          Got c E u e (n :: O) (A ++ B ++ r :: L) (fun f R => Rrb.updateV c f l (sh'.pos x) idx = some R) s2.mem m3 (g1, g.1, g.2) ∧ Path c E m3 e (n :: O) l g1 sh' idx) (out_guard (E' := fun s' => Gone c E u (n :: O) (y :: (A ++ B ++ r :: L)) s2.mem s'.mem) ?_ ?_) ?_
      · rw [bind_ok (liftO_eq h6), bind_ok (kid_eq hcp2 hdp2 hkid)]
        refine out_bind (getMut_path hB hE he l (n :: O) (A ++ B ++ r :: L) s2 y sh' x idx h7 hv' hyv (fun hg => (hop2.tok hg y (by simp)).trans (htok2 hg)) (hop2.inv.permL (perm_child A B y (r :: L)))) ?_
        rintro s3 ⟨g1, ℓ, j⟩ ⟨hgot, hpath⟩
        obtain ⟨_, _, hcn, _⟩ := hapart _ _ _ _ hgot
        rw [bind_ok (putKid_eq (b := g1) hcn (by rw [hop2.data, List.map_append]; rfl) (by simpa using hop2.len) (by simpa using hA))]
        exact ⟨s3.mem, g1, rfl, hgot, hpath⟩
      · intro s3 hg
        obtain ⟨size, hs1, hs2⟩ := hf.asReg
        rw [bind_ok (liftO_eq hs1)]
        have hg2 := hop2.gone (Gone.permL hg (perm_child A B y (r :: L)).symm) (t := e) (b := true) htok2
        refine out_mono (decV_out hB (l + 1) O _ s3 ⟨n, .node (.inner none Ns), e, true⟩ (.reg sh.shift size) _ rfl hs2 hg2.1) ?_ (fun _ h => h)
        intro s4 _ hg4
        exact Gone.trans ((hk1.trans hk2).trans (Kept.tail hg2.2)) hg4
      · rintro s4 ⟨ℓ, j⟩ ⟨m3, g1, hs4, hgot, hpath⟩
        obtain ⟨hne, hne2, hcn, cp3, hcp3, hs3⟩ := hapart _ _ _ _ hgot
        obtain ⟨cg, xe, hcg, hxe, hg⟩ := hgot
        simp only at hcg hxe hg
        have hnr : r.ptr ≠ n := by
          intro h0
          rw [← h0, hc] at hn; cases hn
        have hc4 : s4.mem r.ptr = some cp3 := by rw [hs4, upd_ne hnr]; exact hcp3
        -- after the change
        have key : ∀ f R, Rrb.updateV c f (l + 1) (sh.pos (.inner none Ns)) idx = some R →
            Inv (sys c E u) (upd s4.mem ℓ (some { cg with els := cg.els.set j (.live (f xe)) })) O (r :: ⟨n, .node R, e, false⟩ :: L) ∧
              Kept (sys c E u) O (r :: L) s.mem (upd s4.mem ℓ (some { cg with els := cg.els.set j (.live (f xe)) })) := by
          intro f R hR
          obtain ⟨R', hR', rfl⟩ := hall f R hR
          obtain ⟨hi3, hk3⟩ := hg f R' hR'
          have hop3 := hop2.setKid hi3 (j := off) rfl (fun hg => (htok2 hg).symm) hA
          rw [hs4, upd_comm hne]
          have hcl := VecHeap.retok (hop3.close (t := e) htok2) (fun _ => rfl) false (fun h => by cases h)
          refine ⟨hcl.permL (List.Perm.swap _ _ _), ?_⟩
          have hs2 : ∀ z ∈ r :: L, z ∈ A ++ B ++ r :: L := fun z hz => List.mem_append_right _ hz
          refine ((hk1.trans hk2).trans (hk3.mono hs2 (fun _ h => List.mem_cons_of_mem _ h))).trans ?_
          exact (Kept.write hi3 _).mono (fun z hz => List.mem_cons_of_mem _ (hs2 z hz)) (fun _ h => h)
        have hrc : E.gc = false → 2 ≤ cp3.rc := by
          intro hgc
          obtain ⟨k1, k2⟩ := key id R0 hR0
          refine k1.two hgc (by rw [upd_ne hne2]; exact hc4) ?_
          exact ((Kept.tail k2).reach (reach_of_shared h hc hm hgc)).mono (fun z hz => List.mem_cons_of_mem _ hz)
        rw [bind_ok (decV_down hc4 hrc)]
        have hdown : ∀ a, a ≠ r.ptr → down E.gc s4.mem r.ptr cp3 a = s4.mem a := by
          intro a ha
          unfold down
          split
          · rfl
          · exact upd_ne ha
        have hlast : Path c E (down E.gc s4.mem r.ptr cp3) e O (l + 1) n sh idx := by
          refine ⟨h.fresh_notin hn, { cl2 with data := .inner (capI c E (some e) 0) none (A.map Ref.ptr ++ g1 :: B.map Ref.ptr) }, by rw [hdown n hnr.symm, hs4]; exact upd_self, mutable_intro hop2.rc htok2, off, sh', g1, _, _, _, h4, h6, rfl, (by rw [← hA]; simp), ?_⟩
          refine hpath.congr (fun a ha => List.mem_cons_of_mem _ ha) fun a ca ha hca hma => ⟨ca, ?_, rfl, rfl, rfl⟩
          have han : a ≠ n := by rintro rfl; exact ha List.mem_cons_self
          have hs4a : s4.mem a = some ca := by rw [hs4, upd_ne han]; exact hca
          unfold down
          split
          · exact hs4a
          · rename_i hgc
            rw [upd_ne]
            · exact hs4a
            · rintro rfl
              rw [hc4] at hs4a
              cases hs4a
              have h2 := hrc (by simpa using hgc)
              rw [mutable_rc (by simpa using hgc) hma] at h2
              omega
        refine ⟨⟨cg, xe, ?_, hxe, ?_⟩, hlast⟩
        · show down E.gc s4.mem r.ptr cp3 ℓ = some cg
          have : s4.mem ℓ = some cg := by rw [hs4, upd_ne hne.symm]; exact hcg
          unfold down
          split
          · exact this
          · rw [upd_ne hne2.symm]; exact this
        · intro f R hR
          obtain ⟨k1, k2⟩ := key f R hR
          have hd := down_kept (cl := cp3) k1 (by rw [upd_ne hne2]; exact hc4) hrc
          show Inv (sys c E u) (upd (down E.gc s4.mem r.ptr cp3) ℓ _) O _ ∧ Kept (sys c E u) O L s.mem (upd (down E.gc s4.mem r.ptr cp3) ℓ _)
          have hcomm : ∀ X, upd (down E.gc s4.mem r.ptr cp3) ℓ X = down E.gc (upd s4.mem ℓ X) r.ptr cp3 := by
            intro X
            unfold down
            split
            · rfl
            · rw [upd_comm hne2]
          rw [hcomm]
          exact ⟨hd.1, (Kept.tail k2).trans (Kept.tail hd.2)⟩

/-- `get_mut_visitor` takes the reference to the node -/
theorem getMut_out (hB : 0 < c.B) (hE : E.Fresh) (he : E.gc = true → u.live e) (l : Nat) (O : List Nat) (L : List (Ref (Val T))) (s : St Dat T) (r : Ref (Val T)) (sh : Shp) (N : Node T) (idx : Nat) (hf : Fits c l sh N)
    (hv : ∀ f, ∃ R, Rrb.updateV c f l (sh.pos N) idx = some R) (hr : r.val = .node N) (hrt : E.gc = true → r.tok = e) (h : Inv (sys c E u) s.mem O (r :: L)) :
    Out (getMut c E e l r.ptr sh idx s) (fun s' g => Got c E u e O L (fun f R => Rrb.updateV c f l (sh.pos N) idx = some R) s.mem s'.mem g) (fun s' => Gone c E u O (r :: L) s.mem s'.mem) :=
  out_mono (getMut_path hB hE he l O L s r sh N idx hf hv hr hrt h) (fun _ _ h => h.1) (fun _ h => h)

end
end VecHeap
