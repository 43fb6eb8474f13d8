import Verif.FlexHeap.Center

/-!
# `concat_inners` on memory
-/

namespace FlexHeap
open Mm Rrb VecHeap

variable {T : Type} {c : Cfg} {E : Env Dat T} {u : Toks E.gc} {O : List Nat} {L : List (Ref (Val T))}

section
variable {s : St Dat T} {m m' : Mem Dat T} {p q n i k l e : Nat} {N : Node T} {xs ns lcs cs : List (Node T)} {lx x P Q : Node T} {t : Option HPos} {tl : List T} {h l' : HLeft}

/-! ### Operands -/

/-- a left operand of level `l + 1` with the children `lcs` and `lx` -/
inductive HLOK (c : Cfg) (E : Env Dat T) (u : Toks E.gc) (m : Mem Dat T) (L : List (Ref (Val T))) : Nat → HLeft → List (Node T) → Node T → Prop
  | pos {l : Nat} {p : HPos} {rs : Option (List Nat)} {cs : List (Node T)} {x : Node T} (fits : RFits c (l + 1) p.2 (.inner rs (cs ++ [x]))) (left : LeftPos (p.2.pos (.inner rs (cs ++ [x]))))
      (at_ : At (sys c E u) m L p.1 (.node (.inner rs (cs ++ [x])))) : HLOK c E u m L l (.pos p) cs x
  | single {q : Nat} {xs : List T} (h1 : 1 ≤ xs.length) (h2 : xs.length ≤ 2 ^ c.BL) (at_ : At (sys c E u) m L q (.node (.leaf xs))) (sh : Sh (sys c E u) m L q) :
      HLOK c E u m L 0 (.single q xs.length) [] (.leaf xs)

theorem HLOK.kept (h : HLOK c E u m L l l' lcs lx) (hk : Kept (sys c E u) O L m m') : HLOK c E u m' L l l' lcs lx := by
  cases h with
  | pos a b d => exact .pos a b (d.kept hk)
  | single a b d e => exact .single a b (d.kept hk) (e.kept hk)

theorem HLOK.mono {L' : List (Ref (Val T))} (hL : ∀ r ∈ L, r ∈ L') (h : HLOK c E u m L l l' lcs lx) : HLOK c E u m L' l l' lcs lx := by
  cases h with
  | pos a b d => exact .pos a b (d.mono hL)
  | single a b d e => exact .single a b (d.mono hL) (e.mono hL)

theorem HLOK.shift (h : HLOK c E u m L l l' lcs lx) : l'.shift c = c.BL + c.B * l := by
  cases h with
  | pos a b d =>
    obtain ⟨_, _, _, _, _, _, _, _, h⟩ := PosOK.inner a
    rw [rpos_shift] at h
    exact h
  | single => rfl

theorem HLOK.len (h : HLOK c E u m L l l' lcs lx) : lcs.length + 1 ≤ 2 ^ c.B := by
  cases h with
  | pos a b d =>
    obtain ⟨_, _, h1, _, h2, _, _, _, _⟩ := PosOK.inner a
    rw [rpos_node] at h1
    cases h1
    simpa using h2
  | single => simpa using Nat.one_le_two_pow

theorem HLOK.last (hB : 0 < c.B) (h : HLOK c E u s.mem L l l' lcs lx) (hi : Inv (sys c E u) s.mem O L) : ∃ q, l'.lastSub c s = .ok s q ∧ PosR c E u s.mem L l q lx ∧ LeftPos (q.2.pos lx) := by
  cases h with
  | pos a b d => exact lastSub_ok hB hi a b d
  | single a b d e => exact ⟨_, rfl, ⟨⟨rfl, rfl, a, b⟩, trivial, d, e⟩, trivial⟩

theorem HLOK.left (hB : 0 < c.B) (h : HLOK c E u s.mem L l l' lcs lx) (hi : Inv (sys c E u) s.mem O L) : ∃ ps, l'.eachLeftSub c s = .ok s ps ∧ PosRs c E u s.mem L l ps lcs := by
  cases h with
  | pos a b d => exact eachLeftSub_ok hB hi a b d
  | single a b d e => exact ⟨[], rfl, .nil⟩

theorem PosR.inner {p : HPos} (h : PosR c E u m L (l + 1) p N) : ∃ rs cs, N = .inner rs cs ∧ cs ≠ [] ∧ cs.length ≤ 2 ^ c.B ∧ els (l + 1) N = cs.flatMap (els l) ∧ p.2.shift = c.BL + c.B * l := by
  obtain ⟨rs, cs, h1, h2, h3, _, h5, _, h7⟩ := PosOK.inner h.fits
  rw [rpos_node] at h1
  rw [rpos_shift] at h7
  exact ⟨rs, cs, h1, h2, h3, h5, h7⟩

theorem HLOK.of {p : HPos} (h : PosR c E u m L (l + 1) p N) (hl : LeftPos (p.2.pos N)) : ∃ rs cs x, N = .inner rs (cs ++ [x]) ∧ HLOK c E u m L l (.pos p) cs x ∧ els (l + 1) N = (cs ++ [x]).flatMap (els l) := by
  obtain ⟨rs, cs, rfl, h2, _, h5, _⟩ := h.inner
  obtain ⟨cs, x, rfl⟩ := snoc_cases h2
  exact ⟨rs, cs, x, rfl, .pos h.fits hl h.at_, h5⟩

/-- the tail of the left operand -/
def HTail (c : Cfg) (E : Env Dat T) (u : Toks E.gc) (m : Mem Dat T) (L : List (Ref (Val T))) (t : Option HPos) (tl : List T) : Prop :=
  match t with
  | none => tl = []
  | some p => RFits c 0 p.2 (.leaf tl) ∧ At (sys c E u) m L p.1 (.node (.leaf tl)) ∧ Sh (sys c E u) m L p.1

theorem HTail.kept (h : HTail c E u m L t tl) (hk : Kept (sys c E u) O L m m') : HTail c E u m' L t tl := by
  cases t with
  | none => exact h
  | some p => exact ⟨h.1, h.2.1.kept hk, h.2.2.kept hk⟩

/-! ### `concat_leafs` -/

/-- the result of joining -/
def Center0 (c : Cfg) (E : Env Dat T) (u : Toks E.gc) (l : Nat) (O : List Nat) (L : List (Ref (Val T))) (m0 : Mem Dat T) (els0 : List T) (str : Bool → Prop) (s' : St Dat T) (z : HCenter) : Prop :=
  ∃ C ms, HCen c E u l s'.mem O L z C ms ∧ ms.flatMap (els l) = els0 ∧ (∀ f, str f → SL c f l ms) ∧ LftL l ms ∧ Kept (sys c E u) O L m0 s'.mem

theorem PosR.leaf {p : HPos} (h : PosR c E u m L 0 p P) : ∃ xs, P = .leaf xs ∧ p.2.count c = xs.length ∧ 1 ≤ xs.length ∧ xs.length ≤ 2 ^ c.BL := by
  obtain ⟨h1, h2, h3, h4, _⟩ := PosOK.leaf h.fits
  rw [rpos_node] at h1
  rw [rpos_count] at h2
  exact ⟨_, h1, h2, h3, h4⟩

theorem leafs_out {ps : List HPos} {Ns : List (Node T)} {sizes : List Nat} (h : Inv (sys c E u) s.mem O L) (hp : List.Forall₂ (fun (p : HPos) (N : Node T) => At (sys c E u) s.mem L p.1 (.node N) ∧ Sh (sys c E u) s.mem L p.1) ps Ns)
    (hok : CenterOK c 0 ⟨c.BL, Ns, sizes⟩ Ns) (str : Bool → Prop) (h2 : 2 ≤ Ns.length) :
    Out (((incAll E (ps.map Prod.fst)).bind fun _ => M.ret ⟨c.BL, ps.map Prod.fst, sizes⟩) s) (fun s' z => Center0 c E u 0 O L s.mem (Ns.flatMap (els 0)) str s' z) (fun s' => Gone c E u O L s.mem s'.mem) := by
  have key : ∀ {ps : List HPos} {Ns : List (Node T)}, List.Forall₂ (fun (p : HPos) (N : Node T) => At (sys c E u) s.mem L p.1 (.node N) ∧ Sh (sys c E u) s.mem L p.1) ps Ns →
      ∃ C : List (Ref (Val T)), ps.map Prod.fst = C.map Ref.ptr ∧ C.map Ref.val = Ns.map Val.node ∧ (∀ r ∈ C, r.tok = 0 ∧ r.uniq = false) ∧
        ∀ r ∈ C, r.uniq = false ∧ At (sys c E u) s.mem L r.ptr r.val ∧ Sh (sys c E u) s.mem L r.ptr := by
    intro ps Ns hp
    induction hp with
    | nil => exact ⟨[], rfl, rfl, by simp, by simp⟩
    | @cons p N ps Ns a _ ih =>
      obtain ⟨C, h1, h2, h3, h4⟩ := ih
      refine ⟨⟨p.1, .node N, 0, false⟩ :: C, by simp [h1], by simp [h2], ?_, ?_⟩
      · intro r hr
        rcases List.mem_cons.mp hr with rfl | hr
        · exact ⟨rfl, rfl⟩
        · exact h3 r hr
      · intro r hr
        rcases List.mem_cons.mp hr with rfl | hr
        · exact ⟨rfl, a⟩
        · exact h4 r hr
  obtain ⟨C, c1, c2, c3, c4⟩ := key hp
  obtain ⟨d1, d2, d3⟩ := dupS_refs h c4
  rw [c1, bind_ok (incAll_eq _ s (by
    intro a ha
    obtain ⟨r, hr, rfl⟩ := List.mem_map.mp ha
    exact d3 r hr))]
  exact ⟨C, Ns, ⟨rfl, c2, c3, hok, d1⟩, rfl, fun _ _ => SL.zero, .inl h2, d2⟩

theorem concatLeafs_out {p q : HPos} (h : Inv (sys c E u) s.mem O L) (hp : PosR c E u s.mem L 0 p P) (hq : PosR c E u s.mem L 0 q Q) (ht : HTail c E u s.mem L t tl) (str : Bool → Prop) :
    Out (concatLeafs c E p t q s) (fun s' z => Center0 c E u 0 O L s.mem (els 0 P ++ tl ++ els 0 Q) str s' z) (fun s' => Gone c E u O L s.mem s'.mem) := by
  obtain ⟨xp, rfl, p2, p3, p4⟩ := hp.leaf
  obtain ⟨xq, rfl, q2, q3, q4⟩ := hq.leaf
  have l1 : p.2.isLeaf = true := by rw [hp.fits.isLeaf]; rfl
  have l2 : q.2.isLeaf = true := by rw [hq.fits.isLeaf]; rfl
  unfold concatLeafs
  rw [if_pos ⟨l1, l2⟩, p2, q2]
  cases t with
  | none =>
    have ht : tl = [] := ht
    subst ht
    have := leafs_out (ps := [p, q]) (Ns := [.leaf xp, .leaf xq]) (sizes := [xp.length, xp.length + xq.length]) h (.cons ⟨hp.at_, hp.sh⟩ (.cons ⟨hq.at_, hq.sh⟩ .nil))
      ⟨rfl, by simp, by simp, by simp, by simp [psums, els], by simp [WF, p3, p4, q3, q4], by simp⟩ str (by simp)
    simpa [els] using this
  | some t =>
    obtain ⟨t1, t2, t3⟩ := ht
    obtain ⟨_, h2, h3, h4, _⟩ := PosOK.leaf t1
    rw [rpos_count] at h2
    simp only [els] at h2 h3 h4
    simp only
    rw [h2, if_pos (by omega)]
    have := leafs_out (ps := [p, t, q]) (Ns := [.leaf xp, .leaf tl, .leaf xq]) (sizes := [xp.length, xp.length + tl.length, xp.length + tl.length + xq.length]) h
      (.cons ⟨hp.at_, hp.sh⟩ (.cons ⟨t2, t3⟩ (.cons ⟨hq.at_, hq.sh⟩ .nil)))
      ⟨rfl, by simp, by simp, by simp, by simp [psums, els], by simp [WF, p3, p4, q3, q4, h3, h4], by simp⟩ str (by simp)
    simpa [els] using this

/-! ### `concat_inners` -/

/-- `concat_rebalance` after the centre was made -/
theorem rebalance_out (hB : 0 < c.B) (hE : E.Fresh) {m0 : Mem Dat T} {x : HCenter} {ls rs : List HPos} {xs ys : List (Node T)} {es : List T} {str str' : Bool → Prop}
    (hc : Center0 c E u l O L m0 es str s x) (hxl : xs.length + 1 ≤ 2 ^ c.B) (hyl : ys.length + 1 ≤ 2 ^ c.B) (hcf : E.gc = true → NoCopyFault s)
    (hl : ∀ C ns, HCen c E u l s.mem O L x C ns → PosRs c E u s.mem (C ++ L) l ls xs) (hr : ∀ C ns, HCen c E u l s.mem O L x C ns → PosRs c E u s.mem (C ++ L) l rs ys)
    {es' : List T} (hes : xs.flatMap (els l) ++ es ++ ys.flatMap (els l) = es') (hstr : ∀ f, str' f → SL c true l xs ∧ SL c f l ys ∧ str (f || !ys.isEmpty)) :
    Out (concatRebalance c E ls x rs s) (fun s' z => Center0 c E u (l + 1) O L m0 es' str' s' z) (fun s' => Gone c E u O L m0 s'.mem) := by
  obtain ⟨C, ns, h1, h2, h3, h4, h5⟩ := hc
  refine out_mono (concatRebalance_out hB hE h1 (hl C ns h1) (hr C ns h1) hxl hyl hcf) ?_ (fun s' hg => ⟨hg.1, h5.trans hg.2⟩)
  rintro s' z ⟨C', ms, j1, j2, j3, j4, j5⟩
  refine ⟨C', ms, j1, ?_, ?_, ?_, h5.trans j5⟩
  · rw [j2, ← hes]; simp [h2]
  · intro f hf
    obtain ⟨a, b, d⟩ := hstr f hf
    apply j3
    rw [SL.append, SL.append]
    exact ⟨⟨SL.mono (by simp) a, h3 _ d⟩, b⟩
  · apply j4
    have hn1 := List.length_pos_iff.2 h1.ok.ne
    by_cases h0 : xs = [] ∧ ys = []
    · obtain ⟨rfl, rfl⟩ := h0; simpa using h4
    · left
      rcases xs with _ | ⟨y, xs⟩
      · rcases ys with _ | ⟨y, ys⟩
        · simp at h0
        · simp; omega
      · simp; omega

theorem concatInners_out (hB : 0 < c.B) (hE : E.Fresh) : ∀ (fuel : Nat) {Ll Lr : Nat} {l : HLeft} {lcs : List (Node T)} {lx : Node T} {t : Option HPos} {tl : List T} {r : HPos} {R : Node T} {s : St Dat T}, max Ll Lr < fuel →
    HLOK c E u s.mem L Ll l lcs lx → HTail c E u s.mem L t tl → PosR c E u s.mem L (Lr + 1) r R → (els (Lr + 1) R).length ≤ 2 ^ 32 → c.BL + c.B * Lr < 32 → Inv (sys c E u) s.mem O L → (E.gc = true → NoCopyFault s) →
    Out (concatInners c E fuel l t r s) (fun s' z => Center0 c E u (max Ll Lr + 1) O L s.mem ((lcs ++ [lx]).flatMap (els Ll) ++ tl ++ els (Lr + 1) R)
      (fun f => SL c false Ll (lcs ++ [lx]) ∧ Str c f (Lr + 1) R) s' z) (fun s' => Gone c E u O L s.mem s'.mem) := by
  intro fuel
  induction fuel with
  | zero => intro Ll Lr l lcs lx t tl r R s h; omega
  | succ fuel ih =>
    intro Ll Lr l lcs lx t tl r R s hfuel hl ht hr h32 hs32 hi hcf
    obtain ⟨rs', rcs, rfl, r2, r3, r5, r7⟩ := hr.inner
    obtain ⟨ry, rys, rfl⟩ := cons_cases r2
    have hrw := hr.fits.wf
    have hrk : Rrb.kids (.inner rs' (ry :: rys)) = ry :: rys := rfl
    obtain ⟨q, q1, q2, q4⟩ := hl.last hB hi
    simp only [List.length_cons] at r3
    have hyl : (els Lr ry).length ≤ 2 ^ 32 := by
      rw [r5] at h32; simp at h32; omega
    have hleft : ∀ {s1 : St Dat T} {x : HCenter} {k : Nat}, Kept (sys c E u) O L s.mem s1.mem → (∃ C ns, HCen c E u k s1.mem O L x C ns) →
        ∃ ls, l.eachLeftSub c s1 = .ok s1 ls ∧ ∀ C ns, HCen c E u k s1.mem O L x C ns → PosRs c E u s1.mem (C ++ L) Ll ls lcs := by
      rintro s1 x k hk ⟨C, ns, hc⟩
      obtain ⟨ls, e1, -⟩ := ((hl.kept hk).mono (fun r hr => List.mem_append_right C hr)).left hB hc.inv
      refine ⟨ls, e1, fun C' ns' hc' => ?_⟩
      obtain ⟨ls', e1', e2'⟩ := ((hl.kept hk).mono (fun r hr => List.mem_append_right C' hr)).left hB hc'.inv
      rw [e1] at e1'
      cases e1'
      exact e2'
    have hright : ∀ {s1 : St Dat T} {x : HCenter} {k : Nat}, Kept (sys c E u) O L s.mem s1.mem → (∃ C ns, HCen c E u k s1.mem O L x C ns) →
        ∃ rs, eachRightSub c r.1 r.2 s1 = .ok s1 rs ∧ ∀ C ns, HCen c E u k s1.mem O L x C ns → PosRs c E u s1.mem (C ++ L) Lr rs rys := by
      rintro s1 x k hk ⟨C, ns, hc⟩
      have hrk := hr.kept hk
      have h1 := hrk.mono (fun r hr => List.mem_append_right C hr)
      obtain ⟨ls, e1, -⟩ := eachRightSub_ok hB hc.inv h1.fits h1.sub h32 hs32 h1.at_
      refine ⟨ls, e1, fun C' ns' hc' => ?_⟩
      have h2 := hrk.mono (fun r hr => List.mem_append_right C' hr)
      obtain ⟨ls', e1', e2'⟩ := eachRightSub_ok hB hc'.inv h2.fits h2.sub h32 hs32 h2.at_
      rw [e1] at e1'
      cases e1'
      exact e2'
    unfold concatInners
    rw [hl.shift, r7]
    simp only [shift_lt hB]
    rcases Nat.lt_trichotomy Lr Ll with hlt | heq | hlt
    · -- the left operand is higher
      rw [if_pos hlt]
      obtain ⟨k, rfl⟩ : ∃ k, Ll = k + 1 := ⟨Ll - 1, by omega⟩
      obtain ⟨qr, cs', x', rfl, hq, e5⟩ := HLOK.of q2 q4
      have hmax : max k Lr + 1 = k + 1 := by omega
      have hmax' : max (k + 1) Lr + 1 = k + 1 + 1 := by omega
      have hin := out_noCopy (calm_concatInners c E fuel (.pos q) t r) (ih (by omega) hq ht hr h32 hs32 hi hcf)
      rw [hmax] at hin
      rw [hmax', bind_ok q1, q2.fits.isLeaf]
      simp only [Nat.add_eq_zero_iff, one_ne_zero, and_false, decide_false, Bool.false_eq_true, if_false]
      refine out_bind hin ?_
      rintro s1 x ⟨hx, hn⟩
      have hk : Kept (sys c E u) O L s.mem s1.mem := by obtain ⟨C, ns, _, _, _, _, hk⟩ := hx; exact hk
      obtain ⟨ls, l1, l2⟩ := hleft (x := x) (k := k + 1) hk (by obtain ⟨C, ns, h, _⟩ := hx; exact ⟨C, ns, h⟩)
      rw [bind_ok l1]
      refine rebalance_out hB hE hx hl.len (ys := []) (by simpa using Nat.one_le_two_pow) (fun hg => hn (hcf hg)) l2 (fun _ _ _ => .nil) ?_ ?_
      · simp only [List.flatMap_append, List.append_nil, List.flatMap_nil, List.flatMap_cons]
        rw [e5]
        simp
      · rintro f ⟨hf1, hf2⟩
        rw [SL.append, SL.cons] at hf1
        refine ⟨SL.mono (by simp) hf1.1, by intro a x b h; simp at h, ?_, by simpa using hf2⟩
        exact Str.kids q2.fits.wf (by simpa using hf1.2.1)
    · -- same height
      subst heq
      rw [if_neg (by omega), if_neg (by omega), bind_ok q1, Nat.max_self]
      refine out_bind (Q := fun s1 x => Center0 c E u Lr O L s.mem (els Lr lx ++ tl ++ els Lr ry) (fun f => Str c false Lr lx ∧ Str c f Lr ry) s1 x ∧ (NoCopyFault s → NoCopyFault s1)) ?_ ?_
      · cases Lr with
        | zero =>
          rw [q2.fits.isLeaf, if_pos (by simp)]
          obtain ⟨q', a1, a2⟩ := firstSubLeaf_ok hi hr.fits hr.sub hr.at_
          rw [bind_ok a1]
          exact out_noCopy (calm_concatLeafs c E q t q') (concatLeafs_out hi q2 a2 ht _)
        | succ k =>
          obtain ⟨q', a1, a2⟩ := firstSub_ok hB hi hr.fits hr.sub hr.at_
          obtain ⟨qr, cs', x', rfl, hq, e5⟩ := HLOK.of q2 q4
          have hs' : c.BL + c.B * k < 32 := by
            have : c.B * k ≤ c.B * (k + 1) := Nat.mul_le_mul_left _ (by omega)
            omega
          have hin := out_noCopy (calm_concatInners c E fuel (.pos q) t q') (ih (by omega) hq ht a2 hyl hs' hi hcf)
          rw [Nat.max_self] at hin
          simp only [q2.fits.isLeaf, Nat.add_eq_zero_iff, one_ne_zero, and_false, decide_false, Bool.false_eq_true, if_false]
          rw [bind_ok a1]
          simp only [a2.fits.isLeaf, Nat.add_eq_zero_iff, one_ne_zero, and_false, decide_false, Bool.false_eq_true, if_false]
          refine out_mono hin ?_ (fun _ h => h)
          rintro s1 x ⟨⟨C, ms, z1, z2, z3, z4, z5⟩, hn⟩
          refine ⟨⟨C, ms, z1, by rw [z2, e5], fun f ⟨hf1, hf2⟩ => z3 f ⟨?_, hf2⟩, z4, z5⟩, hn⟩
          exact Str.kids q2.fits.wf hf1
      · rintro s1 x ⟨hx, hn⟩
        have hk : Kept (sys c E u) O L s.mem s1.mem := by obtain ⟨C, ns, _, _, _, _, hk⟩ := hx; exact hk
        have hex : ∃ C ns, HCen c E u Lr s1.mem O L x C ns := by obtain ⟨C, ns, h, _⟩ := hx; exact ⟨C, ns, h⟩
        obtain ⟨ls, l1, l2⟩ := hleft hk hex
        obtain ⟨rs, t1, t2⟩ := hright hk hex
        rw [bind_ok l1, bind_ok t1]
        refine rebalance_out hB hE hx hl.len r3 (fun hg => hn (hcf hg)) l2 t2 ?_ ?_
        · rw [r5]; simp
        · rintro f ⟨hf1, hf2⟩
          have hsl := Str.kids hrw hf2
          rw [hrk, SL.cons] at hsl
          rw [SL.append, SL.cons] at hf1
          exact ⟨SL.mono (by simp) hf1.1, hsl.2, by simpa using hf1.2.1, hsl.1⟩
    · -- the right operand is higher
      rw [if_neg (by omega), if_pos hlt]
      obtain ⟨k, rfl⟩ : ∃ k, Lr = k + 1 := ⟨Lr - 1, by omega⟩
      obtain ⟨q', a1, a2⟩ := firstSub_ok hB hi hr.fits hr.sub hr.at_
      have hs' : c.BL + c.B * k < 32 := by
        have : c.B * k ≤ c.B * (k + 1) := Nat.mul_le_mul_left _ (by omega)
        omega
      have hmax : max Ll k + 1 = k + 1 := by omega
      have hmax' : max Ll (k + 1) + 1 = k + 1 + 1 := by omega
      have hin := out_noCopy (calm_concatInners c E fuel l t q') (ih (by omega) hl ht a2 hyl hs' hi hcf)
      rw [hmax] at hin
      rw [hmax', bind_ok a1]
      simp only [a2.fits.isLeaf, Nat.add_eq_zero_iff, one_ne_zero, and_false, decide_false, Bool.false_eq_true, if_false]
      refine out_bind hin ?_
      rintro s1 x ⟨hx, hn⟩
      have hk : Kept (sys c E u) O L s.mem s1.mem := by obtain ⟨C, ns, _, _, _, _, hk⟩ := hx; exact hk
      obtain ⟨rs, t1, t2⟩ := hright (x := x) (k := k + 1) hk (by obtain ⟨C, ns, h, _⟩ := hx; exact ⟨C, ns, h⟩)
      rw [bind_ok t1]
      refine rebalance_out hB hE hx (xs := []) (by simpa using Nat.one_le_two_pow) r3 (fun hg => hn (hcf hg)) (fun _ _ _ => .nil) t2 ?_ ?_
      · rw [r5]; simp
      · rintro f ⟨hf1, hf2⟩
        have hsl := Str.kids hrw hf2
        rw [hrk, SL.cons] at hsl
        exact ⟨by intro a x b h; simp at h, hsl.2, hf1, hsl.1⟩

end
end FlexHeap
