import Verif.Rrb.Flex
import Verif.Rrb.VecSpec
import Verif.Rrb.ConcatTrees

/-!
# The flexible vector operations refine list operations
-/

namespace Rrb

variable {T : Type} {c : Cfg}

namespace Flex

variable (c) in
/-- the root holds `pre` -/
def Root (root : Node T) (shift : Nat) (pre : List T) : Prop :=
  (pre = [] ∧ root = emptyRoot ∧ shift = c.BL) ∨ ∃ L, shift = c.BL + c.B * L ∧ RootOK c L root pre

variable (c) in
/-- tree `t` is a well formed flexible vector with elements `l` -/
def Inv (t : Tree T) (l : List T) : Prop :=
  ∃ pre tl, l = pre ++ tl ∧ t.size = l.length ∧ t.tail = .leaf tl ∧ tl.length ≤ 2 ^ c.BL ∧ (tl = [] → pre = []) ∧
    Root c t.root t.shift pre

theorem Root.cases {root : Node T} {shift : Nat} {pre : List T} (h : Root c root shift pre) (hne : pre ≠ []) :
    ∃ L, shift = c.BL + c.B * L ∧ RootOK c L root pre := by
  rcases h with ⟨h, -⟩ | h
  · exact absurd h hne
  · exact h

theorem RootOK.ne {L : Nat} {root : Node T} {pre : List T} (h : RootOK c L root pre) : 0 < pre.length := by
  rw [← h.els]; exact h.wf.len.1

/-- what a root may look like -/
theorem RootOK.shape {L : Nat} {root : Node T} {pre : List T} (h : RootOK c L root pre) :
    (∃ cs, root = .inner none cs ∧ Reg c (L + 1) root) ∨
    ∃ cs, cs ≠ [] ∧ root = .inner (some (psums 0 (cs.map (fun x => (els L x).length)))) cs := by
  have hw := h.wf
  match root, hw with
  | .inner none cs, hw => exact Or.inl ⟨cs, rfl, hw⟩
  | .inner (some sz) cs, hw =>
    obtain ⟨h1, h2, h3, rfl⟩ := hw
    exact Or.inr ⟨cs, h1, rfl⟩
  | .leaf _, hw => simp [WF] at hw

theorem tailOffset_ok {t : Tree T} {pre tl : List T} (hsz : t.size = (pre ++ tl).length) (htl : tl.length ≤ 2 ^ c.BL)
    (htl0 : tl = [] → pre = []) (hr : Root c t.root t.shift pre) : tailOffset c t = some pre.length := by
  have hN : 0 < 2 ^ c.BL := Nat.two_pow_pos _
  have hreg : 2 ^ c.BL ∣ pre.length → Vec.tailOffset c t.size = pre.length := by
    intro hd
    rw [hsz]
    cases tl with
    | nil => rw [htl0 rfl]; simp [Vec.tailOffset]
    | cons x xs => exact Vec.tailOffset_unique hd (by simp) (by simpa using htl)
  rcases hr with ⟨rfl, hr, -⟩ | ⟨L, hs, hr⟩
  · simp only [tailOffset, hr, emptyRoot, Node.relaxed?, Option.bind_eq_bind, Option.bind_some]
    rw [hreg (by simp)]
  · rcases RootOK.shape hr with ⟨cs, he, hreg'⟩ | ⟨cs, hne, he⟩
    · simp only [tailOffset, he, Node.relaxed?, Option.bind_eq_bind, Option.bind_some]
      rw [hreg (by rw [← hr.els]; exact hreg'.len.2.2)]
    · simp only [tailOffset, he, Node.relaxed?, Option.bind_eq_bind, Option.bind_some]
      have := size_rel (c := c) (L := L) (n := t.root) (s := t.shift) hne
      simp only [Pos.size] at this
      rw [this, ← hr.els, he]; rfl

/-- the position `visit_maybe_relaxed_sub` starts from -/
theorem RootOK.sub {L : Nat} {root : Node T} {pre : List T} (h : RootOK c L root pre) :
    ∃ p, Pos.maybeRelaxedSub root (c.BL + c.B * L) pre.length = some p ∧ PosOK c (L + 1) p pre ∧ p.node = root ∧ SubPos p := by
  obtain ⟨p, p1, p2, p3⟩ := maybeRelaxedSub_ok h.wf (by rw [h.els])
  rw [h.els] at p2
  exact ⟨p, p1, p2, p3, maybeRelaxedSub_sub p1⟩

theorem inv_empty : Inv c (empty c : Tree T) [] :=
  ⟨[], [], rfl, rfl, rfl, by simp, by simp, Or.inl ⟨rfl, rfl, rfl⟩⟩

theorem Inv.size {t : Tree T} {l : List T} (h : Inv c t l) : t.size = l.length := by
  obtain ⟨pre, tl, -, hsz, -⟩ := h; exact hsz

/-- a vector is a flexible vector -/
theorem Inv.ofVector {t : Tree T} {l : List T} (h : Vec.Inv c t l) : Inv c t l := by
  obtain ⟨pre, tl, rfl, hsz, ht, hpre, hroot⟩ := h
  obtain ⟨hdvd, htl, htl0⟩ := Vec.Inv.parts hpre
  refine ⟨pre, tl, rfl, hsz, ht, htl, htl0, ?_⟩
  rcases hroot with h | ⟨L, hs, hr, he, hL⟩
  · exact Or.inl h
  · exact Or.inr ⟨L, hs, hr.wf, he, hr.str, hr.lft (by rw [he]; exact hL)⟩

/-- two children at a new root -/
theorem two_le_pow (hB : 0 < c.B) : 2 ≤ 2 ^ c.B := by
  calc 2 = 2 ^ 1 := rfl
    _ ≤ 2 ^ c.B := Nat.pow_le_pow_right (by omega) hB

/-- `push_tail` at the root: the height grows by at most one -/
theorem pushTailRoot_spec (hB : 0 < c.B) {root : Node T} {shift : Nat} {pre t : List T} (hr : Root c root shift pre)
    (ht : t.length = 2 ^ c.BL) :
    ∃ s' root' L, pushTailRoot c root shift pre.length (.leaf t) t.length = some (s', root') ∧
      s' = c.BL + c.B * L ∧ RootOK c L root' (pre ++ t) ∧ s' ≤ shift + c.B := by
  have h2 := two_le_pow hB
  rcases hr with ⟨rfl, rfl, rfl⟩ | ⟨L, rfl, hr⟩
  · obtain ⟨m1, m2⟩ := mkPath_reg (c := c) ht 1
    have hlev : levels c c.BL = 1 := by simpa using levels_shift hB 0
    refine ⟨c.BL, mkPath 1 (.leaf t), 0, ?_, by simp, ⟨m1.wf, by simpa using m2, m1.str, trivial⟩, by omega⟩
    simp only [pushTailRoot, emptyRoot, Node.relaxed?, Option.bind_eq_bind, Option.bind_some, hlev]
    rw [if_neg (by
      have : 0 < 2 ^ c.B <<< c.BL := by
        rw [Nat.shiftLeft_eq]; exact Nat.mul_pos (Nat.two_pow_pos _) (Nat.two_pow_pos _)
      rw [List.length_nil]; omega)]
    simp
  · have hlev := levels_shift hB L
    have hpos := RootOK.ne hr
    obtain ⟨m1, m2⟩ := mkPath_reg (c := c) ht (L + 1)
    rcases RootOK.shape hr with ⟨cs, he, hreg⟩ | ⟨cs, hne, he⟩
    · have hlen := hreg.len
      rw [hr.els] at hlen
      have hcap : 2 ^ c.B <<< (c.BL + c.B * L) = cap c (L + 1) := by
        rw [Nat.shiftLeft_eq, pow_shift, cap_succ, mul_comm]
      have hrx : root.relaxed? = some none := by rw [he]; rfl
      simp only [pushTailRoot, hrx, Option.bind_eq_bind, Option.bind_some, hlev, hcap]
      by_cases hfull : pre.length = cap c (L + 1)
      · have hf := hreg.full_of_len (by rw [hr.els]; exact hfull)
        rw [if_pos hfull, Vec.mkInner_ok (by simpa using h2)]
        have hm : Reg c (L + 2) (.inner none [root, mkPath (L + 1) (.leaf t)]) :=
          Reg.snoc (cs := [root]) (by simpa using h2) (by simpa using hf) m1
        refine ⟨_, _, L + 1, rfl, by ring, ⟨hm.wf, ?_, hm.str, Or.inl (by simp [kids])⟩, le_refl _⟩
        rw [els]; simp [hr.els, m2]
      · rw [if_neg hfull, if_pos (by omega)]
        obtain ⟨m, hm1, hm2, hm3⟩ := pushTail_regular hB ht (2 ^ c.BL) L (p := .regSub root (c.BL + c.B * L) pre.length)
          (l := pre) ⟨rfl, hreg, hr.els, rfl⟩ (n := root) (size := pre.length) (Or.inr ⟨rfl, by omega⟩) (by omega)
        simp only [hm1, Option.bind_some]
        refine ⟨_, m, L, rfl, rfl, ⟨hm2.wf, hm3, hm2.str, hm2.lft ?_⟩, by omega⟩
        cases L with
        | zero => left; rfl
        | succ L =>
          right
          rcases hr.lft with h | ⟨sz, y, h, -⟩
          · have := hreg.two.1 h
            rw [hr.els] at this
            rw [hm3, List.length_append]; omega
          · rw [he] at h; simp at h
    · have hrx : root.relaxed? = some (some (psums 0 (cs.map (fun x => (els L x).length)))) := by rw [he]; rfl
      simp only [pushTailRoot, hrx, Option.bind_eq_bind, Option.bind_some, hlev]
      obtain ⟨r, h1, h3, h4⟩ := pushTail_rel hB ht L (l := pre) (n := root) (s := c.BL + c.B * L)
        (sz := psums 0 (cs.map (fun x => (els L x).length))) ⟨rfl, hr.wf, hr.els, cs, he⟩
      rw [h1]
      cases r with
      | some m =>
        obtain ⟨a1, a2, a3, a4, a5⟩ := h3 m rfl
        exact ⟨_, m, L, rfl, rfl, ⟨a1, a2, a4 hr.str, a5 hr.lft⟩, by omega⟩
      | none =>
        have hstr := h4 rfl hr.str
        simp only [Option.bind_some, mkInnerR]
        rw [if_pos (by simpa using h2)]
        have e : (.inner (some [pre.length, pre.length + t.length]) [root, mkPath (L + 1) (.leaf t)] : Node T) =
            relOf (L + 1) [root, mkPath (L + 1) (.leaf t)] := by
          simp [relOf, psums, hr.els, m2]
        simp only [Option.bind_some, e]
        refine ⟨_, _, L + 1, rfl, by ring, ⟨WF.relaxed (by simp) (by simpa using h2) ?_, ?_, ?_, Or.inl (by simp [relOf, kids])⟩,
          le_refl _⟩
        · intro x hx
          simp only [List.mem_cons, List.not_mem_nil, or_false] at hx
          rcases hx with rfl | rfl
          · exact hr.wf
          · exact m1.wf
        · simp [relOf, els, m2]
          rw [← hr.els]
        · rw [relOf, Str.rel, SL.cons, SL.cons]
          exact ⟨by simpa using hstr, by simpa using m1.str, SL.nil⟩

theorem pushBack_spec (hB : 0 < c.B) {t : Tree T} {l : List T} (h : Inv c t l) (x : T) :
    ∃ t', pushBack c t x = some t' ∧ Inv c t' (l ++ [x]) ∧ t'.shift ≤ t.shift + c.B := by
  obtain ⟨pre, tl, rfl, hsz, ht, htl, htl0, hroot⟩ := h
  have hoff := tailOffset_ok hsz htl htl0 hroot
  have hN : 0 < 2 ^ c.BL := Nat.two_pow_pos _
  have hts : t.size - pre.length = tl.length := by rw [hsz]; simp
  simp only [pushBack, hoff, hts, Option.bind_eq_bind, Option.bind_some]
  rcases Nat.lt_or_ge tl.length (2 ^ c.BL) with hlt | hge
  · rw [if_pos hlt]
    refine ⟨⟨t.size + 1, t.shift, t.root, .leaf (tl ++ [x])⟩, ?_, ⟨pre, tl ++ [x], by simp, by simp [hsz]; omega, rfl,
      by rw [List.length_append]; exact hlt, by simp, hroot⟩, by simp⟩
    simp only [copyLeafEmplace, ht, Node.leaf?, Option.bind_eq_bind, Option.bind_some, slice_all rfl]
    rw [Vec.mkLeaf_ok (by simp; omega)]; rfl
  · have htN : tl.length = 2 ^ c.BL := by omega
    rw [if_neg (by omega), Vec.mkLeaf_ok (by simp; omega)]
    obtain ⟨s', root', L, h1, h2, h3, h4⟩ := pushTailRoot_spec hB hroot htN
    simp only [ht, h1, Option.bind_some]
    exact ⟨_, rfl, ⟨pre ++ tl, [x], rfl, by simp [hsz]; omega, rfl, by simp; omega, by simp, Or.inr ⟨L, h2, h3⟩⟩, h4⟩

theorem update_spec (hB : 0 < c.B) {t : Tree T} {l : List T} (h : Inv c t l) {i : Nat} (hi : i < l.length)
    (f : T → T) : ∃ t', update c t i f = some t' ∧ Inv c t' (l.modify i f) ∧ t'.shift = t.shift := by
  obtain ⟨pre, tl, rfl, hsz, ht, htl, htl0, hroot⟩ := h
  have hoff := tailOffset_ok hsz htl htl0 hroot
  have hts : t.size - pre.length = tl.length := by rw [hsz]; simp
  simp only [update, hoff, hts, Option.bind_eq_bind, Option.bind_some]
  simp only [List.length_append] at hi
  rcases Nat.lt_or_ge i pre.length with hlt | hge
  · rw [if_neg (by omega)]
    obtain ⟨L, hs, hr⟩ := hroot.cases (by rintro rfl; simp at hlt)
    obtain ⟨p, p1, p2, p3, -⟩ := RootOK.sub hr
    obtain ⟨n, h1, h2, h3⟩ := updateV_spec hB f (L + 1) p2 i i IdxOK.of_eq hlt
    rw [p3] at h2
    simp only [hs, p1, levels_shift hB L, h1, Option.bind_some]
    exact ⟨_, rfl, ⟨pre.modify i f, tl, Vec.modify_append_left hlt, by simpa using hsz, ht, htl, fun h => by simp [htl0 h],
      Or.inr ⟨L, rfl, h2.wf hr.wf, h3, h2.str hr.str, h2.lft hr.lft⟩⟩, rfl⟩
  · rw [if_pos hge]
    have hp : PosOK c 0 (.leafSub t.tail tl.length) tl := ⟨ht, rfl, by omega, htl⟩
    obtain ⟨n, h1, h2, h3⟩ := updateV_spec hB f 0 hp (i - pre.length) (i - pre.length) IdxOK.of_eq (by omega)
    simp only [h1, Option.bind_some]
    refine ⟨_, rfl, ⟨pre, tl.modify (i - pre.length) f, ?_, by simpa using hsz, ?_, by simpa using htl, ?_, hroot⟩, rfl⟩
    · rw [Vec.modify_append_right hge]
    · simp only
      match n, h2, h3 with
      | .leaf ys, _, h3 => rw [← h3]; rfl
      | .inner _ _, h2, _ => rw [show (Pos.leafSub t.tail tl.length).node = .leaf tl from ht] at h2; simp [SameShape] at h2
    · intro h0
      apply htl0
      have := congrArg List.length h0
      simpa using this

theorem take_spec (hB : 0 < c.B) {t : Tree T} {l : List T} (h : Inv c t l) (n : Nat) :
    ∃ t', take c t n = some t' ∧ Inv c t' (l.take n) ∧ t'.shift ≤ t.shift := by
  have hinv := h
  obtain ⟨pre, tl, rfl, hsz, ht, htl, htl0, hroot⟩ := h
  have hoff := tailOffset_ok hsz htl htl0 hroot
  have hBL : c.BL ≤ t.shift := by
    rcases hroot with ⟨-, -, h⟩ | ⟨L, h, -⟩ <;> rw [h] <;> omega
  simp only [take, hoff, Option.bind_eq_bind, Option.bind_some]
  by_cases h0 : n = 0
  · rw [if_pos h0]; subst h0
    exact ⟨_, rfl, by simpa using inv_empty, hBL⟩
  · rw [if_neg h0]
    by_cases h1 : t.size ≤ n
    · rw [if_pos h1]
      refine ⟨t, rfl, ?_, le_refl _⟩
      rw [List.take_of_length_le (by omega)]
      exact hinv
    · rw [if_neg h1]
      simp only [List.length_append] at hsz
      by_cases h2 : pre.length < n
      · rw [if_pos h2]
        have e1 : (pre ++ tl).take n = pre ++ tl.take (n - pre.length) := by
          rw [List.take_append, List.take_of_length_le (by omega)]
        simp only [copyLeaf, ht, Node.leaf?, Option.bind_eq_bind, Option.bind_some]
        rw [slice_zero (by omega), Option.bind_some, Vec.mkLeaf_ok (by simp; omega)]
        refine ⟨_, rfl, ⟨pre, tl.take (n - pre.length), e1, ?_, rfl, by simp; omega, ?_, hroot⟩, le_refl _⟩
        · simp; omega
        · intro h
          have := congrArg List.length h
          simp only [List.length_take, List.length_nil] at this; omega
      · rw [if_neg h2]
        obtain ⟨L, hs, hr⟩ := hroot.cases (by rintro rfl; simp at h2; omega)
        obtain ⟨p, p1, p2, p3, -⟩ := RootOK.sub hr
        obtain ⟨⟨sh, rt, ts, tail⟩, hres, tt, r1, r2, r3, r4, r5, r6⟩ := sliceRight_spec hB (L + 1) true
          p2 (last := n - 1) (i := n - 1) IdxOK.of_eq (by omega)
        rw [(by omega : n - 1 + 1 = n)] at r5 r6
        have e1 : (pre ++ tl).take n = pre.take n := List.take_append_of_le_length (by omega)
        simp only at r1 r2 r5 r6
        subst r1
        simp only [hs, p1, levels_shift hB L, hres, Option.bind_some, e1]
        cases rt with
        | none =>
          have r5 := r5 rfl
          have hlen := congrArg List.length r5
          simp only [List.length_take] at hlen
          exact ⟨_, rfl, ⟨[], tt, by simp [r5], by simp; omega, rfl, r4, by simp, Or.inl ⟨rfl, rfl, rfl⟩⟩, by simp⟩
        | some m =>
          obtain ⟨L', a1, a2, a3, a4, a5, -, a7⟩ := r6 m rfl
          obtain ⟨a8, a9⟩ := a7 (by rw [p3]; exact hr.str)
          refine ⟨_, rfl, ⟨els (L' + 1) m, tt, a5.symm, by simp; omega, rfl, r4, by rintro rfl; simp at r3,
            Or.inr ⟨L', a3, a4, rfl, a8, a9 trivial⟩⟩, ?_⟩
          simp only
          rw [a3]
          have := Nat.mul_le_mul_left c.B (show L' ≤ L by omega)
          omega

variable (c) in
/-- what the 32-bit shifts of `towards_sub_oh_regular`, `nth` positions and `each_right_sub` cope with -/
def Small (t : Tree T) : Prop := t.size ≤ 2 ^ 32 ∧ t.shift < 32

theorem drop_spec (hB : 0 < c.B) {t : Tree T} {l : List T} (h : Inv c t l) (hsm : Small t) (n : Nat) :
    ∃ t', drop c t n = some t' ∧ Inv c t' (l.drop n) ∧ t'.shift ≤ t.shift := by
  have hinv := h
  obtain ⟨pre, tl, rfl, hsz, ht, htl, htl0, hroot⟩ := h
  have hoff := tailOffset_ok hsz htl htl0 hroot
  have hBL : c.BL ≤ t.shift := by
    rcases hroot with ⟨-, -, h⟩ | ⟨L, h, -⟩ <;> rw [h] <;> omega
  simp only [drop]
  by_cases h0 : n = 0
  · rw [if_pos h0]; subst h0
    exact ⟨t, rfl, by simpa using hinv, le_refl _⟩
  · rw [if_neg h0]
    by_cases h1 : t.size ≤ n
    · rw [if_pos h1]
      refine ⟨_, rfl, ?_, hBL⟩
      rw [List.drop_of_length_le (by omega)]
      exact inv_empty
    · rw [if_neg h1]
      have hsz' := hsz
      simp only [List.length_append] at hsz'
      have hts : t.size - pre.length = tl.length := by omega
      simp only [hoff, hts, Option.bind_eq_bind, Option.bind_some]
      by_cases h2 : n = pre.length
      · rw [if_pos h2]
        refine ⟨_, rfl, ⟨[], tl, by subst h2; simp, by subst h2; simp; omega, ht, htl, by simp, Or.inl ⟨rfl, rfl, rfl⟩⟩, hBL⟩
      · rw [if_neg h2]
        by_cases h3 : pre.length < n
        · rw [if_pos h3]
          simp only [copyLeafI, ht, Node.leaf?, Option.bind_eq_bind, Option.bind_some]
          rw [slice_ok (by omega) (le_refl _), Option.bind_some, List.take_of_length_le (by simp), Vec.mkLeaf_ok (by simp; omega)]
          refine ⟨_, rfl, ⟨[], tl.drop (n - pre.length), ?_, by simp; omega, rfl, by simp; omega, by simp, Or.inl ⟨rfl, rfl, rfl⟩⟩, hBL⟩
          rw [List.drop_append, List.drop_of_length_le (by omega)]
        · rw [if_neg h3]
          obtain ⟨L, hs, hr⟩ := hroot.cases (by rintro rfl; simp at h3; omega)
          obtain ⟨p, p1, p2, p3, p4⟩ := RootOK.sub hr
          have h32 : ∀ L', L' + 1 ≤ L + 1 → c.BL + c.B * L' < 32 := by
            intro L' hL'
            have := Nat.mul_le_mul_left c.B (show L' ≤ L by omega)
            have := hsm.2
            omega
          obtain ⟨sh, m, L', a1, a2, a3, a4, a5, a6, a7, a8⟩ := sliceLeft_spec hB (L + 1) true p2 p4
            (by have := hsm.1; omega) h32 (i := n) (by omega)
          obtain ⟨b1, b2, -⟩ := a4 (by omega)
          obtain ⟨M, rfl⟩ : ∃ M, L' = M + 1 := ⟨L' - 1, by omega⟩
          simp only [Nat.add_sub_cancel] at b2 a8
          simp only [hs, p1, levels_shift hB L, a1, Option.bind_some]
          refine ⟨_, rfl, ⟨pre.drop n, tl, ?_, by simp; omega, ht, htl, fun h => by simp [htl0 h],
            Or.inr ⟨M, b2, a5, a6, a7 _ (by rw [p3]; exact hr.str), a8 trivial (by omega)⟩⟩, ?_⟩
          · rw [List.drop_append_of_le_length (by omega)]
          · simp only
            rw [b2]
            have := Nat.mul_le_mul_left c.B (show M ≤ L by omega)
            omega

theorem concat_spec (hB : 2 ≤ c.B) {t u : Tree T} {l m : List T} (h : Inv c t l) (hu : Inv c u m) (hsm : Small u) :
    ∃ r, concat c t u = some r ∧ Inv c r (l ++ m) ∧ r.shift ≤ max t.shift u.shift + c.B := by
  have hB0 : 0 < c.B := by omega
  have hinv := h
  have hinvu := hu
  obtain ⟨pre, tl, rfl, hsz, ht, htl, htl0, hroot⟩ := h
  obtain ⟨upre, utl, rfl, husz, hut, hutl, hutl0, huroot⟩ := hu
  have hoff := tailOffset_ok hsz htl htl0 hroot
  have huoff := tailOffset_ok husz hutl hutl0 huroot
  have hN : 0 < 2 ^ c.BL := Nat.two_pow_pos _
  simp only [concat]
  by_cases h0 : t.size = 0
  · rw [if_pos h0]
    have : pre ++ tl = [] := List.length_eq_zero_iff.1 (by omega)
    rw [this]
    exact ⟨u, rfl, by simpa using hinvu, by omega⟩
  rw [if_neg h0]
  by_cases hu0 : u.size = 0
  · rw [if_pos hu0]
    have : upre ++ utl = [] := List.length_eq_zero_iff.1 (by omega)
    rw [this]
    exact ⟨t, rfl, by simpa using hinv, by omega⟩
  rw [if_neg hu0]
  have hsz' := hsz
  have husz' := husz
  simp only [List.length_append] at hsz' husz'
  have hts : t.size - pre.length = tl.length := by omega
  have htne : tl ≠ [] := by rintro rfl; rw [htl0 rfl] at hsz; simp at hsz; omega
  have hutne : utl ≠ [] := by rintro rfl; rw [hutl0 rfl] at husz; simp at husz; omega
  have ht1 := List.length_pos_iff.2 htne
  have hut1 := List.length_pos_iff.2 hutne
  simp only [hoff, huoff, hts, Option.bind_eq_bind, Option.bind_some]
  by_cases hr0 : upre.length = 0
  · have hupre : upre = [] := List.length_eq_zero_iff.1 hr0
    subst hupre
    rw [if_pos hr0]
    by_cases hfull : tl.length = 2 ^ c.BL
    · rw [if_pos hfull]
      obtain ⟨s', root', L, a1, a2, a3, a4⟩ := pushTailRoot_spec hB0 hroot hfull
      simp only [ht, a1, Option.bind_some]
      exact ⟨_, rfl, ⟨pre ++ tl, utl, by simp, by simp; omega, hut, hutl, by simp [hutne],
        Or.inr ⟨L, a2, a3⟩⟩, by simp only; omega⟩
    · rw [if_neg hfull]
      simp only [List.length_nil, Nat.zero_add] at husz'
      by_cases hfit : tl.length + u.size ≤ 2 ^ c.BL
      · rw [if_pos hfit]
        simp only [copyLeaf2, ht, hut, Node.leaf?, Option.bind_eq_bind, Option.bind_some, slice_all rfl, husz']
        rw [Vec.mkLeaf_ok (by simp; omega)]
        exact ⟨_, rfl, ⟨pre, tl ++ utl, by simp, by simp; omega, rfl, by simp; omega, by simp [htne], hroot⟩, by simp only; omega⟩
      · rw [if_neg hfit]
        have hN' : 2 ^ c.BL - tl.length < utl.length := by omega
        have hnew : (tl ++ utl.take (2 ^ c.BL - tl.length)).length = 2 ^ c.BL := by simp; omega
        obtain ⟨s', root', L, a1, a2, a3, a4⟩ := pushTailRoot_spec hB0 hroot hnew
        simp only [copyLeaf2, copyLeafI, ht, hut, Node.leaf?, Option.bind_eq_bind, Option.bind_some, slice_all rfl, husz']
        rw [slice_zero (by omega), Option.bind_some, slice_ok (by omega) (le_refl _), Option.bind_some,
          List.take_of_length_le (l := List.drop _ _) (by simp), Vec.mkLeaf_ok (by omega), Vec.mkLeaf_ok (by simp; omega)]
        rw [hnew] at a1
        simp only [Option.bind_some, a1]
        refine ⟨_, rfl, ⟨pre ++ (tl ++ utl.take (2 ^ c.BL - tl.length)), utl.drop (2 ^ c.BL - tl.length), ?_, ?_, rfl, ?_, ?_,
          Or.inr ⟨L, a2, a3⟩⟩, by simp only; omega⟩
        · simp
        · simp; omega
        · simp; omega
        · intro h
          have := congrArg List.length h
          simp at this; omega
  · rw [if_neg hr0]
    have hupne : upre ≠ [] := by rintro rfl; simp at hr0
    obtain ⟨Lr, hus, hur⟩ := huroot.cases hupne
    have hs32 : c.BL + c.B * Lr < 32 := by rw [← hus]; exact hsm.2
    have h32 : upre.length ≤ 2 ^ 32 := by have := hsm.1; omega
    by_cases ho0 : pre.length = 0
    · rw [if_pos ho0]
      have hpre : pre = [] := List.length_eq_zero_iff.1 ho0
      subst hpre
      obtain ⟨M, root, m1, m2, m3, -⟩ := concatTreesTail_ok hB hur ht1 htl h32 hs32
      simp only [ht, hus, m1, Option.bind_some]
      refine ⟨_, rfl, ⟨tl ++ upre, utl, by simp, by simp; omega, hut, hutl, by simp [hutne], Or.inr ⟨M, rfl, m3⟩⟩, ?_⟩
      simp only
      have := Nat.mul_le_mul_left c.B m2
      rw [Nat.mul_add] at this
      omega
    · rw [if_neg ho0]
      obtain ⟨Ll, hs, hr⟩ := hroot.cases (by rintro rfl; simp at ho0)
      obtain ⟨M, root, m1, m2, m3, -⟩ := concatTrees_ok hB hr hur ht1 htl h32 hs32
      simp only [ht, hs, hus, m1, Option.bind_some]
      refine ⟨_, rfl, ⟨pre ++ tl ++ upre, utl, by simp, by simp; omega, hut, hutl, by simp [hutne], Or.inr ⟨M, rfl, m3⟩⟩, ?_⟩
      simp only
      have := Nat.mul_le_mul_left c.B m2
      rcases Nat.le_total Ll Lr with h | h
      · have h' := Nat.mul_le_mul_left c.B h
        rw [Nat.max_eq_right h, Nat.mul_add] at this
        omega
      · have h' := Nat.mul_le_mul_left c.B h
        rw [Nat.max_eq_left h, Nat.mul_add] at this
        omega

/-! ## Compositions -/

theorem pushFront_spec (hB : 2 ≤ c.B) {t : Tree T} {l : List T} (h : Inv c t l) (hsm : Small t) (x : T) :
    ∃ r, pushFront c t x = some r ∧ Inv c r (x :: l) ∧ r.shift ≤ t.shift + 2 * c.B := by
  obtain ⟨a, a1, a2, a3⟩ := pushBack_spec (by omega : 0 < c.B) inv_empty x
  obtain ⟨r, r1, r2, r3⟩ := concat_spec hB a2 h hsm
  simp only [pushFront, a1, r1, Option.bind_eq_bind, Option.bind_some]
  refine ⟨r, rfl, by simpa using r2, ?_⟩
  simp only [empty] at a3
  obtain ⟨pre, tl, rfl, hsz, ht, htl, htl0, hroot⟩ := h
  have hBL : c.BL ≤ t.shift := by
    rcases hroot with ⟨-, -, h⟩ | ⟨L, h, -⟩ <;> rw [h] <;> omega
  omega

theorem Small.drop {t t' : Tree T} {l : List T} (hsm : Small t) (hi : Inv c t l) {n : Nat} (h : Inv c t' (l.drop n))
    (hs : t'.shift ≤ t.shift) : Small t' :=
  ⟨by rw [h.size]; simp; have := hsm.1; rw [hi.size] at this; omega, by have := hsm.2; omega⟩

theorem insert_spec (hB : 2 ≤ c.B) {t : Tree T} {l : List T} (h : Inv c t l) (hsm : Small t) (pos : Nat) (x : T) :
    ∃ r, insert c t pos x = some r ∧ Inv c r (l.take pos ++ x :: l.drop pos) ∧ r.shift ≤ t.shift + 2 * c.B := by
  have hB0 : 0 < c.B := by omega
  obtain ⟨a, a1, a2, a3⟩ := take_spec hB0 h pos
  obtain ⟨a', b1, b2, b3⟩ := pushBack_spec hB0 a2 x
  obtain ⟨b, c1, c2, c3⟩ := drop_spec hB0 h hsm pos
  obtain ⟨r, r1, r2, r3⟩ := concat_spec hB b2 c2 (hsm.drop h c2 c3)
  simp only [insert, a1, b1, c1, r1, Option.bind_eq_bind, Option.bind_some]
  exact ⟨r, rfl, by simpa using r2, by omega⟩

theorem insertAll_spec (hB : 2 ≤ c.B) {t u : Tree T} {l m : List T} (h : Inv c t l) (hsm : Small t) (hu : Inv c u m)
    (husm : Small u) (pos : Nat) :
    ∃ r, insertAll c t pos u = some r ∧ Inv c r (l.take pos ++ m ++ l.drop pos) ∧
      r.shift ≤ max t.shift u.shift + 2 * c.B := by
  have hB0 : 0 < c.B := by omega
  obtain ⟨a, a1, a2, a3⟩ := take_spec hB0 h pos
  obtain ⟨a', b1, b2, b3⟩ := concat_spec hB a2 hu husm
  obtain ⟨b, c1, c2, c3⟩ := drop_spec hB0 h hsm pos
  obtain ⟨r, r1, r2, r3⟩ := concat_spec hB b2 c2 (hsm.drop h c2 c3)
  simp only [insertAll, a1, b1, c1, r1, Option.bind_eq_bind, Option.bind_some]
  exact ⟨r, rfl, r2, by omega⟩

theorem erase_spec (hB : 2 ≤ c.B) {t : Tree T} {l : List T} (h : Inv c t l) (hsm : Small t) (pos : Nat) :
    ∃ r, erase c t pos = some r ∧ Inv c r (l.take pos ++ l.drop (pos + 1)) ∧ r.shift ≤ t.shift + c.B := by
  have hB0 : 0 < c.B := by omega
  obtain ⟨a, a1, a2, a3⟩ := take_spec hB0 h pos
  obtain ⟨b, c1, c2, c3⟩ := drop_spec hB0 h hsm (pos + 1)
  obtain ⟨r, r1, r2, r3⟩ := concat_spec hB a2 c2 (hsm.drop h c2 c3)
  simp only [erase, a1, c1, r1, Option.bind_eq_bind, Option.bind_some]
  exact ⟨r, rfl, r2, by omega⟩

theorem eraseRange_spec (hB : 2 ≤ c.B) {t : Tree T} {l : List T} (h : Inv c t l) (hsm : Small t) (pos lpos : Nat) :
    ∃ r, eraseRange c t pos lpos = some r ∧ Inv c r (l.take pos ++ l.drop (max pos lpos)) ∧ r.shift ≤ t.shift + c.B := by
  have hB0 : 0 < c.B := by omega
  obtain ⟨a, a1, a2, a3⟩ := take_spec hB0 h pos
  obtain ⟨b, c1, c2, c3⟩ := drop_spec hB0 h hsm lpos
  obtain ⟨r, r1, r2, r3⟩ := concat_spec hB a2 c2 (hsm.drop h c2 c3)
  simp only [eraseRange]
  by_cases hlt : pos < lpos
  · rw [if_pos hlt]
    simp only [a1, c1, r1, Option.bind_eq_bind, Option.bind_some]
    exact ⟨r, rfl, by rw [Nat.max_eq_right (by omega)]; exact r2, by omega⟩
  · rw [if_neg hlt]
    refine ⟨t, rfl, ?_, by omega⟩
    rw [Nat.max_eq_left (by omega), List.take_append_drop]; exact h

end Flex
end Rrb
