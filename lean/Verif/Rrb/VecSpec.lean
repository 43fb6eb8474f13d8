import Verif.Rrb.Vec
import Verif.Rrb.ChunkSpec

/-!
# The vector operations refine list operations
-/

namespace Rrb

variable {T : Type} {c : Cfg}

namespace Vec

theorem tailOffset_spec {n : Nat} (h : 0 < n) :
    2 ^ c.BL ∣ tailOffset c n ∧ tailOffset c n < n ∧ n ≤ tailOffset c n + 2 ^ c.BL := by
  have hp : 0 < 2 ^ c.BL := Nat.two_pow_pos _
  have e : tailOffset c n = (n - 1) / 2 ^ c.BL * 2 ^ c.BL := by
    simp only [tailOffset]
    rw [if_pos (by omega), Nat.shiftLeft_eq, Nat.shiftRight_eq_div_pow]
  rw [e]
  have h1 := Nat.div_add_mod (n - 1) (2 ^ c.BL)
  have h2 := Nat.mod_lt (n - 1) hp
  rw [mul_comm] at h1
  exact ⟨Dvd.intro_left _ rfl, by omega, by omega⟩

theorem tailOffset_unique {n o : Nat} (h1 : 2 ^ c.BL ∣ o) (h2 : o < n) (h3 : n ≤ o + 2 ^ c.BL) :
    tailOffset c n = o := by
  obtain ⟨a1, a2, a3⟩ := tailOffset_spec (c := c) (n := n) (by omega)
  obtain ⟨a, ha⟩ := a1
  obtain ⟨b, rfl⟩ := h1
  rw [ha] at a2 a3 ⊢
  have hp : 0 < 2 ^ c.BL := Nat.two_pow_pos _
  have e1 : a < b + 1 := by
    by_contra hcon
    have := Nat.mul_le_mul_left (2 ^ c.BL) (by omega : b + 1 ≤ a)
    rw [Nat.mul_add] at this; omega
  have e2 : b < a + 1 := by
    by_contra hcon
    have := Nat.mul_le_mul_left (2 ^ c.BL) (by omega : a + 1 ≤ b)
    rw [Nat.mul_add] at this; omega
  have : a = b := by omega
  rw [this]

theorem tailOffset_zero : tailOffset c 0 = 0 := by simp [tailOffset]

variable (c) in
/-- the root holds `pre`, at the lowest possible height -/
def RootOK (root : Node T) (shift : Nat) (pre : List T) : Prop :=
  (pre = [] ∧ root = emptyRoot ∧ shift = c.BL) ∨
  ∃ L, shift = c.BL + c.B * L ∧ Reg c (L + 1) root ∧ els (L + 1) root = pre ∧ (L = 0 ∨ cap c L < pre.length)

variable (c) in
/-- tree `t` is a well formed vector with elements `l` -/
def Inv (t : Tree T) (l : List T) : Prop :=
  ∃ pre tl, l = pre ++ tl ∧ t.size = l.length ∧ t.tail = .leaf tl ∧ pre.length = tailOffset c l.length ∧
    RootOK c t.root t.shift pre

theorem RootOK.cases {root : Node T} {shift : Nat} {pre : List T} (h : RootOK c root shift pre) (hne : pre ≠ []) :
    ∃ L, shift = c.BL + c.B * L ∧ Reg c (L + 1) root ∧ els (L + 1) root = pre ∧ (L = 0 ∨ cap c L < pre.length) := by
  rcases h with ⟨h, -⟩ | h
  · exact absurd h hne
  · exact h

theorem rootPos_ok {t : Tree T} {l pre : List T} {L : Nat} (hsz : t.size = l.length)
    (hpre : pre.length = tailOffset c l.length) (hs : t.shift = c.BL + c.B * L) (hr : Reg c (L + 1) t.root)
    (he : els (L + 1) t.root = pre) : PosOK c (L + 1) (rootPos c t) pre := by
  refine ⟨hs, hr, he, ?_⟩
  rw [hsz, hpre]

theorem inv_empty : Inv c (empty c : Tree T) [] :=
  ⟨[], [], rfl, rfl, rfl, by simp [tailOffset], Or.inl ⟨rfl, rfl, rfl⟩⟩

/-- sizes of the two parts -/
theorem Inv.parts {pre tl : List T} (hpre : pre.length = tailOffset c (pre ++ tl).length) :
    2 ^ c.BL ∣ pre.length ∧ tl.length ≤ 2 ^ c.BL ∧ (tl = [] → pre = []) := by
  rcases Nat.eq_zero_or_pos (pre ++ tl).length with h | h
  · have : pre = [] ∧ tl = [] := by simpa using h
    obtain ⟨rfl, rfl⟩ := this
    simp
  · obtain ⟨a1, a2, a3⟩ := tailOffset_spec (c := c) h
    rw [← hpre] at *
    simp only [List.length_append] at *
    exact ⟨a1, by omega, fun h => by subst h; simp at a2⟩

theorem mkLeaf_ok {xs : List T} (h : xs.length ≤ 2 ^ c.BL) : mkLeaf c xs = some (.leaf xs) := by
  rw [mkLeaf, if_pos h]

theorem mkInner_ok {cs : List (Node T)} (h : cs.length ≤ 2 ^ c.B) : mkInner c cs = some (.inner none cs) := by
  rw [mkInner, if_pos h]

theorem pushBack_spec (hB : 0 < c.B) {t : Tree T} {l : List T} (h : Inv c t l) (x : T) :
    ∃ t', pushBack c t x = some t' ∧ Inv c t' (l ++ [x]) := by
  obtain ⟨pre, tl, rfl, hsz, ht, hpre, hroot⟩ := h
  obtain ⟨hdvd, htl, htl0⟩ := Inv.parts hpre
  have hN : 0 < 2 ^ c.BL := Nat.two_pow_pos _
  have hts : t.size - tailOffset c t.size = tl.length := by
    rw [hsz, ← hpre]; simp
  have htoff : tailOffset c t.size = pre.length := by rw [hsz, hpre]
  rw [htoff] at hts
  simp only [pushBack, htoff, hts]
  rcases Nat.lt_or_ge tl.length (2 ^ c.BL) with hlt | hge
  · rw [if_pos hlt]
    refine ⟨⟨t.size + 1, t.shift, t.root, .leaf (tl ++ [x])⟩, ?_, pre, tl ++ [x], by simp, by simp [hsz]; omega, rfl, ?_, hroot⟩
    · simp only [copyLeafEmplace, ht, Node.leaf?, Option.bind_eq_bind, Option.bind_some, slice_all rfl]
      rw [mkLeaf_ok (by simp; omega)]; rfl
    · refine (tailOffset_unique hdvd ?_ ?_).symm <;> simp <;> omega
  · have htN : tl.length = 2 ^ c.BL := by omega
    have hnew : (pre ++ tl).length = tailOffset c (pre ++ tl ++ [x]).length := by
      refine (tailOffset_unique ?_ ?_ ?_).symm
      · rw [List.length_append, htN]; exact Nat.dvd_add hdvd (dvd_refl _)
      · simp
      · simp; omega
    rw [if_neg (by omega), mkLeaf_ok (by simp; omega)]
    simp only [Option.bind_eq_bind, Option.bind_some]
    rcases hroot with ⟨rfl, hr, hs⟩ | ⟨L, hs, hr, he, hL⟩
    · -- first leaf
      obtain ⟨m1, m2⟩ := mkPath_reg (c := c) htN 1
      have hlev : levels c t.shift = 1 := by rw [hs]; simpa using levels_shift hB 0
      rw [if_neg (by
        have : 0 < 2 ^ c.B <<< t.shift := by
          rw [Nat.shiftLeft_eq]; exact Nat.mul_pos (Nat.two_pow_pos _) (Nat.two_pow_pos _)
        rw [List.length_nil]; omega)]
      simp only [List.length_nil, ne_eq, not_true_eq_false, if_false]
      refine ⟨_, rfl, [] ++ tl, [x], rfl, by simp [hsz], rfl, hnew, Or.inr ⟨0, by simpa using hs, ?_, ?_, Or.inl rfl⟩⟩
      · simp only [hlev, ht]; exact m1
      · simp only [hlev, ht]; simpa using m2
    · have hlev : levels c t.shift = L + 1 := by rw [hs]; exact levels_shift hB L
      have hlen := hr.len
      rw [he] at hlen
      have hcap : 2 ^ c.B <<< t.shift = cap c (L + 1) := by
        rw [hs, Nat.shiftLeft_eq, pow_shift, cap_succ, mul_comm]
      rw [hcap]
      by_cases hfull : pre.length = cap c (L + 1)
      · rw [if_pos hfull]
        have h2 : 2 ≤ 2 ^ c.B := by
          calc 2 = 2 ^ 1 := rfl
            _ ≤ 2 ^ c.B := Nat.pow_le_pow_right (by omega) hB
        obtain ⟨m1, m2⟩ := mkPath_reg (c := c) htN (L + 1)
        rw [mkInner_ok (by simpa using h2)]
        refine ⟨_, rfl, pre ++ tl, [x], rfl, by simp [hsz]; omega, rfl, hnew, Or.inr ⟨L + 1, ?_, ?_, ?_, Or.inr ?_⟩⟩
        · simp only [hs]; ring
        · simp only [hlev, ht]
          refine Reg.snoc (cs := [t.root]) (by simpa using h2) ?_ m1
          intro y hy
          simp only [List.mem_singleton] at hy
          subst hy
          exact hr.full_of_len (by rw [he]; exact hfull)
        · simp only [hlev, ht]
          rw [els]; simp [he, m2]
        · simp; omega
      · rw [if_neg hfull, if_pos (by omega)]
        obtain ⟨m, hm1, hm2, hm3⟩ := pushTail_regular hB htN (2 ^ c.BL) L
          (rootPos_ok hsz hpre hs hr he) (n := t.root) (size := tailOffset c t.size)
          (Or.inr ⟨by rw [rootPos, hs], by omega⟩) (by omega)
        simp only [hlev, ht, hm1, Option.bind_some]
        refine ⟨_, rfl, pre ++ tl, [x], rfl, by simp [hsz]; omega, rfl, hnew, Or.inr ⟨L, hs, hm2, hm3, ?_⟩⟩
        rcases hL with h | h
        · exact Or.inl h
        · right; simp; omega

theorem modify_append_left {a b : List T} {i : Nat} (h : i < a.length) {f : T → T} :
    (a ++ b).modify i f = a.modify i f ++ b := by
  apply List.ext_getElem?
  intro k
  simp only [List.getElem?_modify, List.getElem?_append, List.length_modify]
  by_cases hk : k < a.length
  · simp [hk]
  · have : ¬ i = k := by omega
    simp [this]

theorem modify_append_right {a b : List T} {i : Nat} (h : a.length ≤ i) {f : T → T} :
    (a ++ b).modify i f = a ++ b.modify (i - a.length) f := by
  apply List.ext_getElem?
  intro k
  simp only [List.getElem?_modify, List.getElem?_append]
  by_cases hk : k < a.length
  · have : ¬ i = k := by omega
    simp [this, hk]
  · have : (i - a.length = k - a.length) ↔ i = k := by omega
    simp [this, hk]

theorem update_spec (hB : 0 < c.B) {t : Tree T} {l : List T} (h : Inv c t l) {i : Nat} (hi : i < l.length)
    (f : T → T) : ∃ t', update c t i f = some t' ∧ Inv c t' (l.modify i f) := by
  obtain ⟨pre, tl, rfl, hsz, ht, hpre, hroot⟩ := h
  obtain ⟨hdvd, htl, htl0⟩ := Inv.parts hpre
  have hts : t.size - tailOffset c t.size = tl.length := by
    rw [hsz, ← hpre]; simp
  have htoff : tailOffset c t.size = pre.length := by rw [hsz, hpre]
  rw [htoff] at hts
  simp only [update, htoff, hts]
  simp only [List.length_append] at hi
  rcases Nat.lt_or_ge i pre.length with hlt | hge
  · rw [if_neg (by omega)]
    obtain ⟨L, hs, hr, he, hL⟩ := hroot.cases (by rintro rfl; simp at hlt)
    have hlev : levels c t.shift = L + 1 := by rw [hs]; exact levels_shift hB L
    obtain ⟨n, h1, h2, h3⟩ := updateV_spec hB f (L + 1) (rootPos_ok hsz hpre hs hr he) i i IdxOK.of_eq hlt
    simp only [hlev, h1, Option.bind_eq_bind, Option.bind_some]
    refine ⟨_, rfl, pre.modify i f, tl, ?_, by simpa using hsz, ht, by simpa using hpre, Or.inr ⟨L, hs, h2.reg hr, h3, by simpa using hL⟩⟩
    exact modify_append_left hlt
  · rw [if_pos hge]
    have hp : PosOK c 0 (.leafSub t.tail tl.length) tl := ⟨ht, rfl, by omega, htl⟩
    obtain ⟨n, h1, h2, h3⟩ := updateV_spec hB f 0 hp (i - pre.length) (i - pre.length) IdxOK.of_eq (by omega)
    simp only [h1, Option.bind_eq_bind, Option.bind_some]
    refine ⟨_, rfl, pre, tl.modify (i - pre.length) f, ?_, by simpa using hsz, ?_, by simpa using hpre, hroot⟩
    · rw [modify_append_right hge]
    · simp only
      match n, h2, h3 with
      | .leaf ys, _, h3 => rw [← h3]; rfl
      | .inner _ _, h2, _ => rw [show (Pos.leafSub t.tail tl.length).node = .leaf tl from ht] at h2; simp [SameShape] at h2

theorem take_spec (hB : 0 < c.B) {t : Tree T} {l : List T} (h : Inv c t l) (n : Nat) :
    ∃ t', take c t n = some t' ∧ Inv c t' (l.take n) := by
  have hinv := h
  obtain ⟨pre, tl, rfl, hsz, ht, hpre, hroot⟩ := h
  obtain ⟨hdvd, htl, htl0⟩ := Inv.parts hpre
  have htoff : tailOffset c t.size = pre.length := by rw [hsz, hpre]
  simp only [take, htoff]
  by_cases h0 : n = 0
  · rw [if_pos h0]; subst h0
    exact ⟨_, rfl, by simpa using inv_empty⟩
  · rw [if_neg h0]
    by_cases h1 : t.size ≤ n
    · rw [if_pos h1]
      refine ⟨t, rfl, ?_⟩
      rw [List.take_of_length_le (by omega)]
      exact hinv
    · rw [if_neg h1]
      simp only [List.length_append] at hsz
      by_cases h2 : pre.length < n
      · rw [if_pos h2]
        have e1 : (pre ++ tl).take n = pre ++ tl.take (n - pre.length) := by
          rw [List.take_append, List.take_of_length_le (by omega)]
        simp only [copyLeaf, ht, Node.leaf?, Option.bind_eq_bind, Option.bind_some]
        rw [slice_zero (by omega), Option.bind_some, mkLeaf_ok (by simp; omega)]
        refine ⟨_, rfl, pre, tl.take (n - pre.length), e1, ?_, rfl, ?_, hroot⟩
        · simp; omega
        · rw [e1]
          refine (tailOffset_unique hdvd ?_ ?_).symm <;> simp <;> omega
      · rw [if_neg h2]
        obtain ⟨L, hs, hr, he, hL⟩ := hroot.cases (by rintro rfl; simp at h2; omega)
        have hlev : levels c t.shift = L + 1 := by rw [hs]; exact levels_shift hB L
        have hrel : NotRel (rootPos c t) := by intro a b d; simp [rootPos]
        obtain ⟨⟨sh, rt, ts, tail⟩, hres, tt, r1, r2, r3, r4, r5, r6⟩ := sliceRight_spec hB (L + 1) true
          (rootPos_ok (by simpa using hsz) hpre hs hr he) (last := n - 1) (i := n - 1) IdxOK.of_eq (by omega)
        rw [(by omega : n - 1 + 1 = n)] at r5 r6
        have e1 : (pre ++ tl).take n = pre.take n := List.take_append_of_le_length (by omega)
        simp only at r1 r2 r5 r6
        subst r1
        simp only [hlev, hres, Option.bind_eq_bind, Option.bind_some, e1]
        cases rt with
        | none =>
          have r5 := r5 rfl
          have hlen := congrArg List.length r5
          simp only [List.length_take] at hlen
          refine ⟨_, rfl, [], tt, by simp [r5], by simp; omega, rfl, ?_, Or.inl ⟨rfl, rfl, rfl⟩⟩
          rw [r5]
          exact (tailOffset_unique (dvd_zero _) (by omega) (by omega)).symm
        | some m =>
          obtain ⟨L', a1, a2, a3, a4, a5, a6, -⟩ := r6 m rfl
          obtain ⟨a7, a8⟩ := a6 hrel
          refine ⟨_, rfl, els (L' + 1) m, tt, a5.symm, by simp; omega, rfl, ?_, Or.inr ⟨L', a3, a7, rfl, a8 trivial⟩⟩
          rw [← a5]
          refine (tailOffset_unique a7.len.2.2 ?_ ?_).symm <;> simp <;> omega

/-- the height is logarithmic -/
theorem Inv.height {t : Tree T} {l : List T} (h : Inv c t l) (k : Nat) (hk : 0 < k) (hl : l.length ≤ cap c k) :
    ∃ L, L < k ∧ t.shift = c.BL + c.B * L := by
  obtain ⟨pre, tl, rfl, hsz, ht, hpre, hroot⟩ := h
  rcases hroot with ⟨rfl, hr, hs⟩ | ⟨L, hs, hr, he, hL⟩
  · exact ⟨0, hk, by simpa using hs⟩
  · refine ⟨L, ?_, hs⟩
    rcases hL with rfl | hL
    · exact hk
    · by_contra hcon
      have : cap c k ≤ cap c L := by
        unfold cap
        refine Nat.pow_le_pow_right (by omega) ?_
        have : c.B * k ≤ c.B * L := Nat.mul_le_mul_left _ (by omega)
        omega
      simp only [List.length_append] at hl
      omega

variable (c) in
/-- the size the unrolled descent copes with -/
def Fits (n : Nat) : Prop := c.deep = true ∨ n ≤ cap c 6

theorem descend_spec (hB : 0 < c.B) {t : Tree T} {l : List T} (h : Inv c t l) (hl : Fits c l.length) {i : Nat}
    (hi : i < l.length) : ∃ xs, descend c t i = some (.leaf xs, i) ∧ At l i xs (i &&& (2 ^ c.BL - 1)) ∧
      (xs.length = 2 ^ c.BL ∨ l.length ≤ i - (i &&& (2 ^ c.BL - 1)) + xs.length) := by
  obtain ⟨L, hL6, hs⟩ : ∃ L, (c.deep = true ∨ L < 6) ∧ t.shift = c.BL + c.B * L := by
    rcases hl with hd | hl
    · obtain ⟨pre, tl, rfl, hsz, ht, hpre, hroot⟩ := h
      rcases hroot with ⟨-, -, hs⟩ | ⟨L, hs, -⟩
      · exact ⟨0, Or.inl hd, by simpa using hs⟩
      · exact ⟨L, Or.inl hd, hs⟩
    · obtain ⟨L, h1, h2⟩ := h.height 6 (by omega) hl
      exact ⟨L, Or.inr h1, h2⟩
  obtain ⟨pre, tl, rfl, hsz, ht, hpre, hroot⟩ := h
  obtain ⟨hdvd, htl, htl0⟩ := Inv.parts hpre
  have htoff : tailOffset c t.size = pre.length := by rw [hsz, hpre]
  simp only [descend, htoff]
  simp only [List.length_append] at hi
  rcases Nat.lt_or_ge i pre.length with hlt | hge
  · rw [if_neg (by omega)]
    obtain ⟨L', hs', hr, he, hL'⟩ := hroot.cases (by rintro rfl; simp at hlt)
    have : L' = L := Nat.eq_of_mul_eq_mul_left hB (by omega)
    subst this
    have hlen := hr.len
    rw [he] at hlen
    obtain ⟨xs, h1, h2, pre', post, h3, h4, h5⟩ := descendRegular_spec (L' + 1) hr i i (Nat.mod_eq_of_lt (by omega))
      (by rw [he]; exact hlt)
    refine ⟨xs, ?_, ⟨pre', post ++ tl, by rw [← he, h3]; simp, h4, h5⟩, Or.inl h2⟩
    obtain ⟨m, hm⟩ := descentLevels_shift hB L' hL6
    simp only [visitRegularDescent, hs, hm, Option.bind_eq_bind, Option.bind_some, h1]
  · rw [if_pos hge, ht]
    have hm : i &&& (2 ^ c.BL - 1) = i - pre.length := by
      rw [Nat.and_two_pow_sub_one_eq_mod]
      obtain ⟨a, ha⟩ := hdvd
      have : i = (i - pre.length) + 2 ^ c.BL * a := by omega
      rw [this, Nat.add_mul_mod_self_left, ← ha, Nat.add_sub_cancel, Nat.mod_eq_of_lt]
      rcases Nat.lt_or_ge (i - pre.length) (2 ^ c.BL) with h | h
      · exact h
      · omega
    refine ⟨tl, rfl, ⟨pre, [], by simp, ?_, ?_⟩, Or.inr ?_⟩
    · rw [hm]; omega
    · rw [hm]; omega
    · rw [hm]; simp; omega

theorem get_spec (hB : 0 < c.B) {t : Tree T} {l : List T} (h : Inv c t l) (hl : Fits c l.length) {i : Nat}
    (hi : i < l.length) : get c t i = some l[i] := by
  obtain ⟨xs, h1, h2, -⟩ := descend_spec hB h hl hi
  simp only [get, h1, Option.bind_eq_bind, Option.bind_some, getLeaf, Node.leaf?]
  rw [← h2.get, List.getElem?_eq_getElem hi]

theorem getCheck_spec (hB : 0 < c.B) {t : Tree T} {l : List T} (h : Inv c t l) (hl : Fits c l.length) (i : Nat) :
    getCheck c t i = some (match l[i]? with | some x => .ok x | none => .error ()) := by
  have hsz : t.size = l.length := by obtain ⟨pre, tl, rfl, hsz, -⟩ := h; exact hsz
  simp only [getCheck, hsz]
  rcases Nat.lt_or_ge i l.length with hi | hi
  · rw [if_neg (by omega), get_spec hB h hl hi, List.getElem?_eq_getElem hi]; rfl
  · rw [if_pos hi, List.getElem?_eq_none hi]

theorem back_spec {t : Tree T} {l : List T} (h : Inv c t l) (hne : l ≠ []) : back c t = l.getLast? := by
  obtain ⟨pre, tl, rfl, hsz, ht, hpre, -⟩ := h
  obtain ⟨hdvd, htl, htl0⟩ := Inv.parts hpre
  have htne : tl ≠ [] := by intro h; rw [htl0 h, h] at hne; simp at hne
  have h0 : 0 < tl.length := List.length_pos_iff.2 htne
  simp only [back, ht, Node.leaf?, Option.bind_eq_bind, Option.bind_some, hsz]
  rw [Nat.and_two_pow_sub_one_eq_mod, List.getLast?_append_of_ne_nil _ htne, List.getLast?_eq_getElem?]
  congr 1
  obtain ⟨a, ha⟩ := hdvd
  have : (pre ++ tl).length - 1 = (tl.length - 1) + 2 ^ c.BL * a := by simp; omega
  rw [this, Nat.add_mul_mod_self_left, Nat.mod_eq_of_lt (by omega)]

theorem forEachChunk_spec (hB : 0 < c.B) {t : Tree T} {l : List T} (h : Inv c t l) :
    ∃ chs : List (List T), chs.flatten = l ∧ ∀ {σ : Type} (fn : List T → σ → Bool × σ) (s : σ),
      forEachChunk c fn t s = some (runP fn chs s) := by
  obtain ⟨pre, tl, rfl, hsz, ht, hpre, hroot⟩ := h
  obtain ⟨hdvd, htl, htl0⟩ := Inv.parts hpre
  have hts : t.size - tailOffset c t.size = tl.length := by rw [hsz, ← hpre]; simp
  have htoff : tailOffset c t.size = pre.length := by rw [hsz, hpre]
  have h1 : Chunks pre (fun fn s => if pre.length ≠ 0 then chunks c fn (levels c t.shift) (rootPos c t) s
      else some (true, s)) := by
    rcases hroot with ⟨rfl, hr, hs⟩ | ⟨L, hs, hr, he, hL⟩
    · exact ⟨[], rfl, by simp, by simp [runP]⟩
    · have hlev : levels c t.shift = L + 1 := by rw [hs]; exact levels_shift hB L
      have := chunks_spec hB (L + 1) (rootPos_ok hsz hpre hs hr he)
      have h0 := hr.len.1
      rw [he] at h0
      have hne : pre ≠ [] := by rintro rfl; simp at h0
      simpa [hlev, hne] using this
  obtain ⟨a, ha, -, hfn⟩ := h1
  refine ⟨a ++ [tl], by simp [ha], ?_⟩
  intro σ fn s
  have e1 := hfn fn s
  simp only at e1
  rw [htoff] at hts
  simp only [forEachChunk, htoff, hts, andP]
  rw [e1]
  simp only [Option.bind_eq_bind, Option.bind_some, runP_append, chunks, Pos.node, ht, Node.leaf?, Pos.count, slice_all rfl]
  split
  · simp only [runP, Option.some.injEq]
    rcases hf : fn tl (runP fn a s).2 with ⟨b, s'⟩
    cases b <;> rfl
  · rfl

theorem forEachChunkI_spec (hB : 0 < c.B) {t : Tree T} {l : List T} (h : Inv c t l) {i j : Nat} (hij : i ≤ j)
    (hj : j ≤ l.length) :
    ∃ chs : List (List T), chs.flatten = (l.take j).drop i ∧ (∀ ch ∈ chs, ch ≠ []) ∧
      ∀ {σ : Type} (fn : List T → σ → Bool × σ) (s : σ),
      forEachChunkI c fn t i j s = some (runP fn chs s) := by
  obtain ⟨pre, tl, rfl, hsz, ht, hpre, hroot⟩ := h
  obtain ⟨hdvd, htl, htl0⟩ := Inv.parts hpre
  have hts : t.size - tailOffset c t.size = tl.length := by rw [hsz, ← hpre]; simp
  have htoff : tailOffset c t.size = pre.length := by rw [hsz, hpre]
  simp only [List.length_append] at hj
  have h1 : Chunks ((pre.take j).drop i) (fun fn s => if i < pre.length then
      chunksI c fn (levels c t.shift) (rootPos c t) i (if j < pre.length then j else pre.length) s
      else some (true, s)) := by
    by_cases hi : i < pre.length
    · obtain ⟨L, hs, hr, he, hL⟩ := hroot.cases (by rintro rfl; simp at hi)
      have hlev : levels c t.shift = L + 1 := by rw [hs]; exact levels_shift hB L
      by_cases hij' : i < j
      · have hm : (if j < pre.length then j else pre.length) = min j pre.length := by
          split <;> omega
        have := chunksI_spec hB (L + 1) (rootPos_ok hsz hpre hs hr he) (first := i) (last := min j pre.length)
          (i := i) (j := min j pre.length) IdxOK.of_eq IdxOK.of_eq (by omega) (by omega) (by omega)
        have e : pre.take (min j pre.length) = pre.take j := by
          rw [← List.take_take, List.take_of_length_le (l := pre) (le_refl _)]
        rw [e] at this
        simpa [hlev, hm, hi] using this
      · have : i = j := by omega
        subst this
        refine ⟨[], by simp, by simp, ?_⟩
        intro σ fn s
        simp only [hi, if_true, hlev, chunksI, lt_irrefl, if_false]; rfl
    · refine ⟨[], ?_, by simp, by simp [hi, runP]⟩
      rw [List.drop_of_length_le (by simp; omega)]; rfl
  have h2 : Chunks ((tl.take (j - pre.length)).drop (i - pre.length)) (fun fn s => if pre.length < j then
      chunksI c fn 0 (.leafSub t.tail tl.length) (if pre.length < i then i - pre.length else 0) (j - pre.length) s
      else some (true, s)) := by
    have hm : (if pre.length < i then i - pre.length else 0) = i - pre.length := by split <;> omega
    by_cases hj' : pre.length < j
    · by_cases hij' : i < j
      · have := chunksI_spec hB 0 (p := .leafSub t.tail tl.length) (l := tl) ⟨ht, rfl, by omega, htl⟩ 
          (first := i - pre.length) (last := j - pre.length)
          (i := i - pre.length) (j := j - pre.length) IdxOK.of_eq IdxOK.of_eq (by omega) (by omega) (by omega)
        simpa [hm, hj'] using this
      · have : i = j := by omega
        subst this
        refine ⟨[], by simp, by simp, ?_⟩
        intro σ fn s
        simp only [hj', if_true, chunksI, lt_irrefl, if_false, Pos.node, ht, Node.leaf?, Option.bind_eq_bind,
          Option.bind_some]; rfl
    · refine ⟨[], ?_, by simp, by simp [hj', runP]⟩
      rw [(by omega : j - pre.length = 0)]; simp
  obtain ⟨chs, e1, e2, e3⟩ := h1.and h2
  refine ⟨chs, ?_, e2, ?_⟩
  · rw [e1, List.take_append, List.drop_append]
    congr 2
    simp
    omega
  · intro σ fn s
    rw [← e3 fn s]
    rw [htoff] at hts
    simp only [forEachChunkI, htoff, hts]

end Vec
end Rrb
