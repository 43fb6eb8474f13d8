import Verif.VecHeap.Build
import Verif.VecHeap.Steps

/-!
# Visitors that make new trees
-/

namespace VecHeap
open Mm Rrb

variable {T : Type} {c : Cfg} {E : Env Dat T} {u : Toks E.gc} {O : List Nat} {L : List (Ref (Val T))}

section
variable {s : St Dat T} {m m' : Mem Dat T} {p q n i : Nat} {xs : List T} {N : Node T} {Ns : List (Node T)} {ks : List Nat} {cl : Cell Dat T} {r : Ref (Val T)} {own : Option Nat} {t : Nat}

theorem applyEl_out {user : Bool} {f : T → T} {x : T} (hc : s.mem p = some cl) (hx : cl.els[i]? = some (.live x)) :
    Out (applyEl user f p i s) (fun s' _ => s'.mem = upd s.mem p (some { cl with els := cl.els.set i (.live (f x)) }))
      (fun s' => user = true ∧ s'.mem = upd s.mem p (some { cl with els := cl.els.set i .moved })) := by
  unfold applyEl
  rw [bind_ok (moveEl_eq hc hx)]
  have hi : i < cl.els.length := (List.getElem?_eq_some_iff.mp hx).1
  refine out_bind (Q := fun s' _ => s'.mem = upd s.mem p (some { cl with els := cl.els.set i .moved })) ?_ ?_
  · cases user with
    | false => exact rfl
    | true =>
      rw [if_pos rfl]
      exact out_mono (tick_out' (Q := fun m => m = upd s.mem p (some { cl with els := cl.els.set i .moved })) rfl) (fun _ _ h => h.1) (fun _ h => ⟨rfl, h⟩)
  · intro s' _ hs'
    rw [assignEl_eq (c := { cl with els := cl.els.set i .moved }) (w := x) (by rw [hs']; exact upd_self) (.inr (by simp [hi]))]
    show upd s'.mem p _ = _
    rw [hs', upd_upd]
    simp

/-- reaching a node through another one -/
theorem Kept.from {v : Val T} {b : Bool} {rt : Ref (Val T)} (h : Kept (sys c E u) O (⟨q, v, t, b⟩ :: L) m m') (hf : From (sys c E u) m q rt.ptr) : Kept (sys c E u) O (rt :: L) m m' := by
  refine ⟨?_, h.2⟩
  rintro x ⟨y, hy, hx⟩ cx hcx
  rcases List.mem_cons.mp hy with rfl | hy
  · exact h.1 x ⟨⟨q, v, t, b⟩, List.mem_cons_self, hf.trans hx⟩ cx hcx
  · exact h.1 x ⟨y, List.mem_cons_of_mem _ hy, hx⟩ cx hcx

theorem From.kept {v : Val T} {b : Bool} (h : Kept (sys c E u) O (⟨q, v, t, b⟩ :: L) m m') (hf : From (sys c E u) m q n) : From (sys c E u) m' q n :=
  hf.same fun x hx => h.1 x ⟨⟨q, v, t, b⟩, List.mem_cons_self, hx⟩

/-- the child just added -/
theorem Op.from {cap : Nat} {Lo : List (Ref (Val T))} (h : Op c E u m O L p cl cap Lo Ns) (hr : r ∈ Lo) : From (sys c E u) m p r.ptr := by
  refine .next .here h.cell ?_
  show r.ptr ∈ outsD cl.data
  rw [h.data]
  exact List.mem_map_of_mem hr

theorem Kept.retok {v : Val T} {b b' : Bool} {t' : Nat} (h : Kept (sys c E u) O (⟨q, v, t, b⟩ :: L) m m') : Kept (sys c E u) O (⟨q, v, t', b'⟩ :: L) m m' :=
  Kept.from h .here

/-- `make_path` takes the reference to the leaf -/
theorem makePath_out (hE : E.Fresh) {rt : Ref (Val T)} (ht : E.gc = true → own.getD 0 = rt.tok) (hrt : rt.val = .node N) : ∀ (k : Nat) (O : List Nat) (s : St Dat T), Inv (sys c E u) s.mem O (rt :: L) →
    Out (makePath c E own k rt.ptr s) (fun s' q => Inv (sys c E u) s'.mem O (⟨q, .node (mkPath k N), rt.tok, false⟩ :: L) ∧ Kept (sys c E u) O (rt :: L) s.mem s'.mem ∧ From (sys c E u) s'.mem q rt.ptr)
      (fun s' => Gone c E u O (rt :: L) s.mem s'.mem)
  | 0, O, s, h => by
    refine ⟨?_, .refl, .here⟩
    have : rt = ⟨rt.ptr, .node N, rt.tok, rt.uniq⟩ := by rw [← hrt]
    rw [this] at h
    exact VecHeap.retok h (fun _ => rfl) false (fun h => by cases h)
  | k + 1, O, s, h => by
    unfold makePath
    refine out_bind (out_mono (newInner_out hE h) (fun _ _ h => h) (fun _ he => gone_of_eq h he)) ?_
    rintro s1 n ⟨hn, hs1⟩
    have hop := Op.new h hn 1 own
    rw [← hs1] at hop
    have hk1 : Kept (sys c E u) O (rt :: L) s.mem s1.mem := by rw [hs1]; exact Kept.new h hn _
    refine out_bind (out_guard (makePath_out hE ht hrt k (n :: O) s1 hop.inv) ?_) ?_
    · intro s2 hg
      have hop2 := hop.mem (L' := rt :: L) hg.1 (hg.2.2 n List.mem_cons_self)
      refine out_mono (dealloc_open hop2.inv hop2.cell rfl ?_) ?_ (fun _ h => h)
      · cases own <;> rfl
      · intro s3 _ hg3
        exact Gone.trans (hk1.trans (Kept.open hg.2)) hg3
    · rintro s2 q ⟨hi, hk, hf⟩
      have hop2 := hop.mem (L' := ⟨q, .node (mkPath k N), rt.tok, false⟩ :: L) hi (hk.2 n List.mem_cons_self)
      obtain ⟨cl', he, htk, hop3, hk3⟩ := hop2.push (n := 0) rfl (fun hg => by show rt.tok = tk E own; rw [tk_gc hg]; exact (ht hg).symm) (by
        have : 1 ≤ capI c E own 1 := capI_le Nat.one_le_two_pow
        show 0 < _; omega) rfl
      rw [bind_ok he]
      refine ⟨?_, ?_, ?_⟩
      · exact VecHeap.retok (hop3.close (t := rt.tok) (fun hg => by rw [htk]; show tk E own = _; rw [tk_gc hg]; exact ht hg)) (fun _ => rfl) false (fun h => by cases h)
      · exact (hk1.trans (Kept.open hk)).trans (Kept.from hk3 hf)
      · have h1 : From (sys c E u) (upd s2.mem n (some cl')) n q := hop3.from (r := ⟨q, .node (mkPath k N), rt.tok, false⟩) (by simp)
        exact h1.trans (From.kept hk3 hf)

theorem Elems.set {els : List (Slot T)} (h : Elems els xs) (hi : i < xs.length) (x : T) : Elems (els.set i (.live x)) (xs.set i x) := by
  obtain ⟨k, rfl⟩ := h
  refine ⟨k, ?_⟩
  rw [List.set_append_left _ _ (by simpa using hi), List.map_set]

theorem leafCell_set (hi : i < xs.length) (x : T) : ({ leafCell c E own n xs with els := (leafCell c E own n xs).els.set i (.live x) } : Cell Dat T) = leafCell c E own n (xs.set i x) := by
  unfold leafCell
  simp only [List.length_set]
  rw [List.set_append_left _ _ (by simpa using hi), List.map_set]

/-- `update_visitor` -/
theorem updateV_out (hB : 0 < c.B) (hE : E.Fresh) (user : Bool) (f : T → T) : ∀ (l : Nat) (O : List Nat) (s : St Dat T) (p : Nat) (sh : Shp) (N : Node T) (idx : Nat) (R : Node T), Fits c l sh N →
    Rrb.updateV c f l (sh.pos N) idx = some R → Inv (sys c E u) s.mem O L → At (sys c E u) s.mem L p (.node N) →
    Out (updateV c E user f l p sh idx s) (fun s' q => Inv (sys c E u) s'.mem O (⟨q, .node R, 0, true⟩ :: L) ∧ Kept (sys c E u) O L s.mem s'.mem) (fun s' => Gone c E u O L s.mem s'.mem)
  | 0, O, s, p, sh, N, idx, R, hf, hv, h, ha => by
    obtain ⟨xs, off, x, rfl, h1, h2, h3, h4, h5, rfl⟩ := hf.updLeaf hv
    obtain ⟨cl, hc, _, hx, _⟩ := at_leaf h ha
    have hoff : off < xs.length := (List.getElem?_eq_some_iff.mp h5).1
    unfold updateV
    rw [if_pos h1, bind_ok (liftO_eq h4), h2]
    refine out_bind (out_mono (copyLeafN_out hE h hc hx (Nat.le_refl _) (Nat.le_refl _) h3) (fun _ _ h => h) (fun _ he => gone_of_eq h he)) ?_
    rintro s1 n ⟨hn, hs1⟩
    rw [List.take_length] at hs1
    have hcell : s1.mem n = some (leafCell c E none xs.length xs) := by rw [hs1]; exact upd_self
    have hget : (leafCell c E none xs.length xs).els[off]? = some (.live x) := by
      rw [Elems.get (xs := xs) (els := (leafCell c E none xs.length xs).els) ⟨_, rfl⟩ hoff, h5]; rfl
    refine out_bind (out_guard (applyEl_out hcell hget) ?_) ?_
    · rintro s2 ⟨_, hs2⟩
      rw [hs1, upd_upd] at hs2
      refine out_mono (delLeaf_there (O := O) (L := L) (by rw [hs2]; exact h.alloc hn _) (by rw [hs2]; exact upd_self) rfl (mid := (xs.map Slot.live).set off .moved)
        (k := capL c E none xs.length - xs.length) ?_ ?_ (by simp) ?_) ?_ (fun _ h => h)
      · show (leafCell c E none xs.length xs).els.set off .moved = _
        unfold leafCell
        rw [List.set_append_left _ _ (by simpa using hoff)]
      · intro y hy
        rcases List.mem_or_eq_of_mem_set hy with hy | rfl
        · exact live_there xs y hy
        · rfl
      · show ((leafCell c E none xs.length xs).els.set off .moved).length = if E.gc && tk E none != 0 then _ else _
        rw [List.length_set, leafCell_length (Nat.le_refl _) h3, tk_none]
        simp [capL]
      · intro s3 _ hg
        refine Gone.trans ?_ hg
        rw [hs2]
        exact Kept.new h hn _
    · intro s2 _ hs2
      rw [leafCell_set hoff, hs1, upd_upd] at hs2
      show Inv (sys c E u) s2.mem O _ ∧ Kept (sys c E u) O L s.mem s2.mem
      rw [hs2]
      exact ⟨close_new h hn (by simp) h3 (fun _ => rfl), Kept.new h hn _⟩
  | l + 1, O, s, p, sh, N, idx, R, hf, hv, h, ha => by
    obtain ⟨Ns, off, x, sh', R', rfl, h1, h2, h3, h4, h5, h6, h7, h8, rfl⟩ := hf.upd hB hv
    have hoff : off < Ns.length := (List.getElem?_eq_some_iff.mp h5).1
    unfold updateV
    rw [bind_ok (liftO_eq h4), h1]
    refine out_bind (out_mono (newInner_out hE h) (fun _ _ h => h) (fun _ he => gone_of_eq h he)) ?_
    rintro s1 n ⟨hn, hs1⟩
    have hop := Op.new h hn Ns.length none
    rw [← hs1] at hop
    have hk1 : Kept (sys c E u) O L s.mem s1.mem := by rw [hs1]; exact Kept.new h hn _
    have ha1 := ha.kept hk1
    obtain ⟨cp, cap, Lc, hc, hd, hval, _, hx⟩ := at_inner hop.inv ha1
    obtain ⟨y, hy, hyv⟩ := nth_ref hval h5
    have hya := (hx y (List.mem_of_getElem? hy)).2.1
    rw [hyv] at hya
    refine out_bind (out_guard (E := fun s' => Gone c E u O L s.mem s'.mem) (E' := fun s' => Gone c E u (n :: O) L s1.mem s'.mem)
      (Q := fun s' q => Inv (sys c E u) s'.mem (n :: O) (⟨q, .node R', 0, true⟩ :: L) ∧ Kept (sys c E u) (n :: O) L s1.mem s'.mem) ?_ ?_) ?_
    · rw [bind_ok (liftO_eq h6), bind_ok (kid_eq hc hd (by rw [List.getElem?_map, hy]; rfl))]
      exact updateV_out hB hE user f l (n :: O) s1 y.ptr sh' x idx R' h7 h8 hop.inv hya
    · intro s2 hg
      have hop2 := hop.mem (L' := L) hg.1 (hg.2.2 n List.mem_cons_self)
      refine out_mono (hop2.free (own := none) rfl rfl) ?_ (fun _ h => h)
      intro s3 _ hg3
      exact Gone.trans (hk1.trans (Kept.open hg.2)) hg3
    · rintro s2 q ⟨hi, hk⟩
      have hop2 := hop.mem (L' := ⟨q, .node R', 0, true⟩ :: L) hi (hk.2 n List.mem_cons_self)
      refine out_bind (copyReplace_out (off := off) hop2 (ha1.kept hk) rfl (fun _ => tk_none.symm) rfl (capI_le h3) hoff |> fun h => out_mono h (fun _ _ h => h) (fun _ h => h.elim)) ?_
      rintro s3 _ ⟨cl', Lc', htk, hop3, hk3⟩
      refine ⟨hop3.close (fun _ => htk.trans tk_none), ?_⟩
      exact (hk1.trans (Kept.open hk)).trans hk3

/-- `push_tail_visitor` takes the reference to the leaf -/
theorem pushTailNew_out (hB : 0 < c.B) (hE : E.Fresh) {rt : Ref (Val T)} {Nt : Node T} {ts : Nat} (ht : E.gc = true → own.getD 0 = rt.tok) (hrt : rt.val = .node Nt) :
    ∀ (l : Nat) (O : List Nat) (s : St Dat T) (p : Nat) (sh : Shp) (N : Node T) (size : Nat) (R : Node T), Fits c (l + 1) sh N → RegPos c l (sh.pos N) N size → (els (l + 1) N).length < cap c (l + 1) →
    pushTail c Nt ts (l + 1) (sh.pos N) = some (some R) → Inv (sys c E u) s.mem O (rt :: L) → At (sys c E u) s.mem L p (.node N) →
    Out (pushTailNew c E own rt.ptr (l + 1) p sh s) (fun s' q => Inv (sys c E u) s'.mem O (⟨q, .node R, rt.tok, false⟩ :: L) ∧ Kept (sys c E u) O (rt :: L) s.mem s'.mem ∧ From (sys c E u) s'.mem q rt.ptr ∧ q ≠ rt.ptr)
      (fun s' => Gone c E u O (rt :: L) s.mem s'.mem)
  | l, O, s, p, sh, N, size, R, hf, hp, hlt, hv, h, ha => by
    obtain ⟨ds, e, ni, rfl, hlen, h1, h2, h3, hor⟩ := hf.push hB hp hlt hv
    unfold pushTailNew
    rw [bind_ok (liftO_eq h1), bind_ok (liftO_eq h2), bind_ok (liftO_eq h3)]
    refine out_bind (out_mono (newInner_out hE h) (fun _ _ h => h) (fun _ he => gone_of_eq h he)) ?_
    rintro s1 n ⟨hn, hs1⟩
    have hne : n ≠ rt.ptr := by
      rintro rfl
      obtain ⟨_, _, hc, _⟩ := h.look (r := rt) List.mem_cons_self
      rw [hn] at hc; cases hc
    have hop := Op.new h hn (ni + 1) own
    rw [← hs1] at hop
    have hk1 : Kept (sys c E u) O (rt :: L) s.mem s1.mem := by rw [hs1]; exact Kept.new h hn _
    have ha1 := ha.kept (Kept.tail hk1)
    -- the last child
    have key : ∀ (X : Node T) (g : HM T Nat) (k : Nat), ni = k → k ≤ ds.length + 1 → k + 1 ≤ 2 ^ c.B → R = .inner none ((ds ++ [e]).take k ++ [X]) →
        Out (g s1) (fun s' q => Inv (sys c E u) s'.mem (n :: O) (⟨q, .node X, rt.tok, false⟩ :: L) ∧ Kept (sys c E u) (n :: O) (rt :: L) s1.mem s'.mem ∧ From (sys c E u) s'.mem q rt.ptr)
          (fun s' => Gone c E u (n :: O) (rt :: L) s1.mem s'.mem) →
        Out (((g.guard (freeInner c E own n (ni + 1))).bind fun child => (doCopyInner E n p ni).bind fun _ => (putKid n ni child).bind fun _ => M.ret n) s1)
          (fun s' q => Inv (sys c E u) s'.mem O (⟨q, .node R, rt.tok, false⟩ :: L) ∧ Kept (sys c E u) O (rt :: L) s.mem s'.mem ∧ From (sys c E u) s'.mem q rt.ptr ∧ q ≠ rt.ptr)
          (fun s' => Gone c E u O (rt :: L) s.mem s'.mem) := by
      rintro X g k rfl hk hk2 rfl hg
      refine out_bind (out_guard hg ?_) ?_
      · intro s2 hg
        have hop2 := hop.mem (L' := rt :: L) hg.1 (hg.2.2 n List.mem_cons_self)
        refine out_mono (hop2.free rfl rfl) ?_ (fun _ h => h.elim)
        intro s3 _ hg3
        exact Gone.trans (hk1.trans (Kept.open hg.2)) hg3
      · rintro s2 q ⟨hi, hk2', hfr⟩
        have hop2 := hop.mem (L' := ⟨q, .node X, rt.tok, false⟩ :: L) hi (hk2'.2 n List.mem_cons_self)
        have hcap : ni + 1 ≤ capI c E own (ni + 1) := capI_le hk2
        refine out_bind (out_mono (copyInner_out (n := ni) hop2 (At.mono (fun x hx => List.mem_cons_of_mem _ hx) (ha1.kept (Kept.tail hk2'))) (by simp; omega) (by omega)) (fun _ _ h => h) (fun _ h => h.elim)) ?_
        rintro s3 _ ⟨cl', Lc, htk, hop3, hk3⟩
        have hl3 := hop3.length
        rw [List.length_take] at hl3
        simp only [List.length_append, List.length_singleton] at hl3
        obtain ⟨cl4, he, htk4, hop4, hk4⟩ := hop3.push (n := ni) (N := X) rfl (fun hg => by
          rw [htk]; show rt.tok = tk E own; rw [tk_gc hg]; exact (ht hg).symm) (by omega) (by omega)
        rw [bind_ok he]
        refine ⟨?_, ?_, ?_, hne⟩
        · exact VecHeap.retok (hop4.close (t := rt.tok) (fun hg => by rw [htk4, htk]; show tk E own = _; rw [tk_gc hg]; exact ht hg)) (fun _ => rfl) false (fun h => by cases h)
        · exact (hk1.trans (Kept.open hk2')).trans (Kept.from (hk3.trans hk4) hfr)
        · have h1 : From (sys c E u) (upd s3.mem n (some cl4)) n q := hop4.from (r := ⟨q, .node X, rt.tok, false⟩) (by simp)
          exact h1.trans (From.kept (hk3.trans hk4) hfr)
    rcases hor with ⟨rfl, hl2, rfl⟩ | ⟨l', sl, R', rfl, rfl, h4, h5, h6, h7, h8, rfl⟩
    · rw [if_neg (by omega)]
      refine key _ _ _ rfl (Nat.le_refl _) hl2 (by rw [List.take_of_length_le (by simp)]) ?_
      exact makePath_out hE ht hrt l (n :: O) s1 hop.inv
    · rw [if_pos rfl]
      refine key R' _ _ rfl (Nat.le_succ _) hlen (by simp) ?_
      obtain ⟨cp, cap, Lc, hc, hd, hval, _, hx⟩ := at_inner (hop.inv) (At.mono (fun x hx => List.mem_cons_of_mem _ hx) ha1)
      obtain ⟨y, hy, hyv⟩ := nth_ref (j := ds.length) (N := e) hval (by simp)
      rw [bind_ok (liftO_eq h4), bind_ok (kid_eq hc hd (by rw [List.getElem?_map, hy]; rfl))]
      have hya := (hx y (List.mem_of_getElem? hy)).2.1
      rw [hyv] at hya
      refine out_mono (pushTailNew_out hB hE ht hrt l' (n :: O) s1 y.ptr sl e size R' h5 h6 h7 h8 hop.inv ?_) (fun _ _ h => ⟨h.1, h.2.1, h.2.2.1⟩) (fun _ h => h)
      obtain ⟨r0, hr0, hf0⟩ := ha1.reach
      exact ⟨⟨r0, hr0, .next hf0 hc (by show y.ptr ∈ outsD cp.data; rw [hd]; exact List.mem_map_of_mem (List.mem_of_getElem? hy))⟩, hya.den, hya.unowned⟩

end
end VecHeap
