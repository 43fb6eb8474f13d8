import Verif.FlexHeap.ConcatInners

/-!
# `concat_trees` on memory
-/

namespace FlexHeap
open Mm Rrb VecHeap

variable {T : Type} {c : Cfg} {E : Env Dat T} {u : Toks E.gc} {O : List Nat} {L : List (Ref (Val T))}

section
variable {s : St Dat T} {m m0 : Mem Dat T} {l Ll Lr : Nat} {ms : List (Node T)} {es tl : List T} {str : Bool → Prop} {x : HCenter} {C : List (Ref (Val T))}

/-- shift and root of a new tree -/
def Rooted (c : Cfg) (E : Env Dat T) (u : Toks E.gc) (l : Nat) (O : List Nat) (L : List (Ref (Val T))) (m0 : Mem Dat T) (es : List T) (str : Bool → Prop) (s' : St Dat T) (x : Nat × Nat) : Prop :=
  ∃ M root, x.1 = c.BL + c.B * M ∧ M ≤ l ∧ Inv (sys c E u) s'.mem O (⟨x.2, .node root, 0, false⟩ :: L) ∧ Kept (sys c E u) O L m0 s'.mem ∧ WF c (M + 1) root ∧ els (M + 1) root = es ∧ LftOK M root ∧
    (∃ cs, root = relOf M cs) ∧ ∀ f, str f → Str c f (M + 1) root

theorem HCen.drop_out (hB : 0 < c.B) (h : HCen c E u l s.mem O L x C ms) : Out (x.drop c E s) (fun s' _ => Gone c E u O L s.mem s'.mem) (fun _ => False) := by
  obtain ⟨ps, h1, h2, h3⟩ := h.subs hB
  have hs : x.shift = c.BL + c.B * l := h.ok.shift
  unfold HCenter.drop
  rw [bind_ok h1, hs, levels_shift hB, Nat.add_sub_cancel]
  exact HCen.release hB h.val h2 h3 h.inv

theorem realize_out (hB : 2 ≤ c.B) (hE : E.Fresh) (h : Center0 c E u (l + 1) O L m0 es str s x) :
    Out (x.realize c E s) (fun s' y => Rooted c E u (l + 1) O L m0 es str s' y) (fun s' => Gone c E u O L m0 s'.mem) := by
  obtain ⟨C, ms, h1, h2, h3, h4, h5⟩ := h
  have hlen : C.length = ms.length := by simpa using congrArg List.length h1.val
  have hsh : x.shift = c.BL + c.B * (l + 1) := h1.ok.shift
  have hsz : x.sizes = psums 0 (ms.map fun n => (els (l + 1) n).length) := h1.ok.sizes
  have hne := List.length_pos_iff.2 h1.ok.ne
  have h3' := h1.ok.le
  have h4' : 4 ≤ 2 ^ c.B := by
    calc 4 = 2 ^ 2 := rfl
      _ ≤ 2 ^ c.B := Nat.pow_le_pow_right (by omega) hB
  have hxn : x.nodes.length = ms.length := by rw [h1.nodes, List.length_map, hlen]
  unfold HCenter.realize
  by_cases hlt : 1 < ms.length
  · rw [if_pos (by omega)]
    refine out_bind (out_guard (newInnerR_out (own := none) (n := x.nodes.length) hE h1.inv) ?_) ?_
    · intro s1 hs1
      have h1' : HCen c E u (l + 1) s1.mem O L x C ms := h1.frame (by rw [hs1]; exact h1.inv)
      have := h1'.drop_out (by omega)
      rw [hs1] at this
      exact out_mono this (fun s' _ hg => ⟨hg.1, h5.trans hg.2⟩) (fun _ h => h)
    · rintro s1 p ⟨t, cl, ct, hop, hT, hcl, hct, hk, -⟩
      have hcap : C.length ≤ capI c E none x.nodes.length := by rw [hxn, hlen]; exact capI_le (by omega)
      rw [bind_ok (theTable_eq hop.cell hop.data), h1.nodes, bind_ok (setKids_eq hop.cell hop.data (by rw [List.length_map]; exact hcap))]
      have hop2 := hop.put (Lo' := C) (L' := L) (Ns' := ms) (some t) (m' := s1.mem) (by simpa using hop.inv) h1.val (fun _ r hr => by rw [(h1.tok r hr).1, hcl, tk_none]) hcap
      have hT2 : Tb c E (upd s1.mem p (some { cl with data := .inner (capI c E none x.nodes.length) (some t) (C.map Ref.ptr) })) t ct (capI c E none x.nodes.length) [] := hT.mem (upd_ne (Ne.symm hop.ne))
      have hss : x.sizes.length ≤ capI c E none x.nodes.length := by rw [hsz, psums_length, List.length_map, ← hlen]; exact hcap
      rw [bind_ok (setSizes_eq hT2.cell hT2.data hss)]
      obtain ⟨hop3, hk3⟩ := hop2.sizes { ct with data := .table (capI c E none x.nodes.length) x.sizes }
      have hi := OpG.closeT hop3 (hT2.set hss) (k := 0) (fun _ => by rw [hct]; exact hcl.symm) (fun _ => by rw [hcl, tk_none])
      have hi' := retok (p := p) hi (fun _ => rfl) false (by simp)
      refine ⟨l + 1, relOf (l + 1) ms, hsh, le_refl _, ?_, ?_, WF.relaxed h1.ok.ne (by omega) h1.ok.wf, h2, .inl hlt, ⟨ms, rfl⟩, fun f hf => h3 f hf⟩
      · rw [show relOf (l + 1) ms = .inner (some x.sizes) ms by rw [hsz]; rfl]
        exact hi'
      · refine h5.trans ?_
        refine (hk.mono (fun r hr => List.mem_append_right _ hr) (fun _ h => h)).trans ?_
        refine Kept.trans ?_ hk3
        exact (Kept.write hop.inv _).mono (fun r hr => List.mem_append_right C hr) (fun _ h => List.mem_cons_of_mem _ h)
  · rw [if_neg (by omega)]
    obtain ⟨n, rfl⟩ : ∃ n, ms = [n] := List.length_eq_one_iff.1 (by omega)
    obtain ⟨r, rfl⟩ : ∃ r, C = [r] := List.length_eq_one_iff.1 (by simpa using hlen)
    obtain ⟨cs, rfl⟩ := h1.ok.rel l rfl n (by simp)
    have hv : r.val = .node (relOf l cs) := by simpa using h1.val
    have hr := h1.tok r (by simp)
    rw [h1.nodes]
    have hM : x.shift - c.B = c.BL + c.B * l := by
      have : c.B * (l + 1) = c.B * l + c.B := by ring
      omega
    refine ⟨l, relOf l cs, hM, by omega, ?_, h5, h1.ok.wf _ (by simp), by simpa using h2, ?_, ⟨cs, rfl⟩, ?_⟩
    · have := h1.inv
      obtain ⟨p, v, t, b⟩ := r
      simp only at hv hr
      obtain ⟨rfl, rfl⟩ := hr
      subst hv
      exact this
    · rcases h4 with h4 | ⟨L', n, hL, h4, h4'⟩
      · simp at h4
      · obtain rfl : l = L' := by omega
        simp only [List.cons.injEq, and_true] at h4; rw [h4]; exact h4'
    · intro f hf
      have := h3 f hf [] (relOf l cs) [] rfl
      simpa using this

theorem subSh_left {n : Node T} {sh size : Nat} (hw : WF c (l + 1) n) : LeftPos ((subSh sh size n).pos n) ∧ SubPos ((subSh sh size n).pos n) := by
  obtain ⟨rs, cs, rfl⟩ := wf_inner hw
  cases rs <;> exact ⟨trivial, trivial⟩

variable {lroot rroot p q t : Nat} {P Q : Node T} {ll rl : List T}

/-- a root that is used by a concatenation -/
structure HRoot (c : Cfg) (E : Env Dat T) (u : Toks E.gc) (m : Mem Dat T) (L : List (Ref (Val T))) (l p : Nat) (N : Node T) (es : List T) : Prop where
  ok : RootOK c l N es
  at_ : At (sys c E u) m L p (.node N)
  sh : Sh (sys c E u) m L p

theorem HRoot.pos (h : HRoot c E u s.mem L l p P es) : maybeRel (T := T) p (c.BL + c.B * l) es.length s = .ok s (subSh (c.BL + c.B * l) es.length P) ∧
    PosR c E u s.mem L (l + 1) (p, subSh (c.BL + c.B * l) es.length P) P ∧ LeftPos ((subSh (c.BL + c.B * l) es.length P).pos P) :=
  ⟨maybeRel_wf h.at_.den h.ok.wf, ⟨subSh_fits h.ok.wf (by rw [h.ok.els]), (subSh_left h.ok.wf).2, h.at_, h.sh⟩, (subSh_left h.ok.wf).1⟩

theorem concatTrees_out (hB : 2 ≤ c.B) (hE : E.Fresh) (h : Inv (sys c E u) s.mem O L) (hl : HRoot c E u s.mem L Ll p P ll) (hr : HRoot c E u s.mem L Lr q Q rl) (ht1 : 1 ≤ tl.length) (ht2 : tl.length ≤ 2 ^ c.BL)
    (hta : At (sys c E u) s.mem L t (.node (.leaf tl))) (hts : Sh (sys c E u) s.mem L t) (h32 : rl.length ≤ 2 ^ 32) (hs32 : c.BL + c.B * Lr < 32) (hcf : E.gc = true → NoCopyFault s) :
    Out (concatTrees c E p (c.BL + c.B * Ll) ll.length t tl.length q (c.BL + c.B * Lr) rl.length s) (fun s' y => Rooted c E u (max Ll Lr + 1) O L s.mem (ll ++ tl ++ rl) (fun f => f = false) s' y)
      (fun s' => Gone c E u O L s.mem s'.mem) := by
  have hB0 : 0 < c.B := by omega
  obtain ⟨l1, l2, l3⟩ := hl.pos
  obtain ⟨r1, r2, r3⟩ := hr.pos
  obtain ⟨rs, cs, x, rfl, hlok, he⟩ := HLOK.of l2 l3
  have htl : HTail c E u s.mem L (some (t, .reg (.leaf tl.length))) tl := by
    refine ⟨?_, hta, hts⟩
    simp only [RFits, RShp.pos, Shp.pos, PosOK, els, true_and]
    refine ⟨ht1, ?_⟩
    rw [Nat.mod_eq_of_lt (by omega)]; omega
  unfold concatTrees
  rw [bind_ok l1, bind_ok r1, levels_shift hB0, levels_shift hB0]
  refine out_bind (concatInners_out hB0 hE (Ll + 1 + (Lr + 1)) (by omega) hlok htl r2 (by rw [hr.ok.els]; exact h32) hs32 h hcf) ?_
  rintro s1 z ⟨C, ms, z1, z2, z3, z4, z5⟩
  refine realize_out hB hE ⟨C, ms, z1, ?_, ?_, z4, z5⟩
  · rw [z2, ← he, hl.ok.els, hr.ok.els]
  · rintro f rfl
    exact z3 false ⟨Str.kids hl.ok.wf hl.ok.str, hr.ok.str⟩

theorem concatTreesTail_out (hB : 2 ≤ c.B) (hE : E.Fresh) (h : Inv (sys c E u) s.mem O L) (hr : HRoot c E u s.mem L Lr q Q rl) (ht1 : 1 ≤ tl.length) (ht2 : tl.length ≤ 2 ^ c.BL)
    (hta : At (sys c E u) s.mem L t (.node (.leaf tl))) (hts : Sh (sys c E u) s.mem L t) (h32 : rl.length ≤ 2 ^ 32) (hs32 : c.BL + c.B * Lr < 32) (hcf : E.gc = true → NoCopyFault s) :
    Out (concatTreesTail c E t tl.length q (c.BL + c.B * Lr) rl.length s) (fun s' y => Rooted c E u (Lr + 1) O L s.mem (tl ++ rl) (fun f => f = false) s' y)
      (fun s' => Gone c E u O L s.mem s'.mem) := by
  have hB0 : 0 < c.B := by omega
  obtain ⟨r1, r2, r3⟩ := hr.pos
  unfold concatTreesTail
  rw [bind_ok r1, levels_shift hB0]
  have hin := concatInners_out hB0 hE (1 + (Lr + 1)) (Ll := 0) (by omega) (HLOK.single ht1 ht2 hta hts) (t := none) (tl := []) rfl r2 (by rw [hr.ok.els]; exact h32) hs32 h hcf
  rw [Nat.zero_max] at hin
  refine out_bind hin ?_
  rintro s1 z ⟨C, ms, z1, z2, z3, z4, z5⟩
  refine realize_out hB hE ⟨C, ms, z1, ?_, ?_, z4, z5⟩
  · rw [z2, hr.ok.els]; simp [els]
  · rintro f rfl
    exact z3 false ⟨SL.zero, hr.ok.str⟩

end
end FlexHeap
