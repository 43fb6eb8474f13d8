import Verif.Rrb.VecSpec

/-!
# Vector equality and iterators
-/

namespace Rrb

variable {T : Type} {c : Cfg}

namespace Vec

variable {same : Node T → Node T → Bool} {eq : T → T → Bool}

theorem stdEqual_spec (heq : ∀ x y, eq x y = true ↔ x = y) : ∀ (xs ys : List T), xs.length = ys.length →
    ∃ b, stdEqual eq xs ys = some b ∧ (b = true ↔ xs = ys)
  | [], [], _ => ⟨true, rfl, by simp⟩
  | x :: xs, y :: ys, h => by
    obtain ⟨b, h1, h2⟩ := stdEqual_spec heq xs ys (by simpa using h)
    by_cases hxy : eq x y = true
    · refine ⟨b, by simp [stdEqual, hxy, h1], ?_⟩
      rw [heq] at hxy; subst hxy; simp [h2]
    · refine ⟨false, by simp [stdEqual, hxy], ?_⟩
      simp only [Bool.false_eq_true, List.cons.injEq, false_iff, not_and]
      intro h; exact absurd ((heq x y).2 h) hxy
  | [], _ :: _, h => by simp at h
  | _ :: _, [], h => by simp at h

theorem equalsLeaf_spec (hsame : ∀ a b, same a b = true → a = b) (heq : ∀ x y, eq x y = true ↔ x = y)
    {p : Pos T} {l m : List T} (h : PosOK c 0 p l) (hlen : m.length = l.length) :
    ∃ b, equalsReg c same eq 0 p (.leaf m) = some b ∧ (b = true ↔ l = m) := by
  obtain ⟨hn, hc, h1, h2, -⟩ := h.leaf
  simp only [equalsReg, hn]
  by_cases hs : same (.leaf l) (.leaf m) = true
  · rw [if_pos hs]
    have := hsame _ _ hs
    simp only [Node.leaf.injEq] at this
    exact ⟨true, rfl, by simp [this]⟩
  · rw [if_neg hs]
    simp only [Node.leaf?, Option.bind_eq_bind, Option.bind_some, hc, slice_all rfl]
    exact stdEqual_spec heq l m hlen.symm

/-- two regular nodes with the same number of elements have the same shape -/
theorem reg_zip {L : Nat} {a b : Node T} (ha : Reg c (L + 1) a) (hb : Reg c (L + 1) b)
    (h : (els (L + 1) a).length = (els (L + 1) b).length) : ∃ cs ds, a = .inner none cs ∧ b = .inner none ds ∧
      List.Forall₂ (fun x y => Reg c L x ∧ Reg c L y ∧ (els L x).length = (els L y).length) cs ds := by
  obtain ⟨cs, e, rfl, -, hd, he, -, h1⟩ := ha.decomp
  obtain ⟨ds, f, rfl, -, hd', hf, -, h2⟩ := hb.decomp
  obtain ⟨e1, e2, -⟩ := he.len
  obtain ⟨f1, f2, -⟩ := hf.len
  have hl : cs.length = ds.length := by
    rw [← reg_count (m := cs.length) e1 e2, ← reg_count (m := ds.length) f1 f2]
    congr 1; omega
  have hef : (els L e).length = (els L f).length := by rw [h1, h2, hl] at h; omega
  refine ⟨_, _, rfl, rfl, List.rel_append ?_ (.cons ⟨he, hf, hef⟩ .nil)⟩
  rw [List.forall₂_iff_get]
  refine ⟨hl, fun i h1 h2 => ?_⟩
  have a1 := hd _ (List.get_mem cs ⟨i, h1⟩)
  have a2 := hd' _ (List.get_mem ds ⟨i, h2⟩)
  exact ⟨a1.reg, a2.reg, by rw [a1.len, a2.len]⟩

theorem equalsReg_spec (hB : 0 < c.B) (hsame : ∀ a b, same a b = true → a = b) (heq : ∀ x y, eq x y = true ↔ x = y) :
    ∀ (L : Nat) {p : Pos T} {l : List T} {other : Node T}, PosOK c L p l → Reg c L p.node → Reg c L other →
      (els L other).length = l.length →
      ∃ b, equalsReg c same eq L p other = some b ∧ (b = true ↔ l = els L other) := by
  intro L
  induction L with
  | zero =>
    intro p l other h hr ho hlen
    match other, ho with
    | .leaf m, ho => exact equalsLeaf_spec hsame heq h hlen
    | .inner _ _, ho => simp [Reg] at ho
  | succ L ih =>
    intro p l other h hr ho hlen
    obtain ⟨r, cs, hn, hne, hl, hw, rfl, hcnt, hsh⟩ := h.inner
    have hels : els (L + 1) p.node = cs.flatMap (els L) := by rw [hn]; rfl
    simp only [equalsReg]
    by_cases hs : same p.node other = true
    · rw [if_pos hs]
      have := hsame _ _ hs
      exact ⟨true, rfl, by simp [← this, hels]⟩
    · rw [if_neg hs]
      obtain ⟨cs', ds, h1, rfl, hz⟩ := reg_zip hr ho (by rw [hels, hlen])
      rw [hn] at h1
      simp only [Node.inner.injEq] at h1
      obtain ⟨-, rfl⟩ := h1
      obtain ⟨ps, hps, hks⟩ := h.each hB hn
      simp only [hps, Node.inner?, Option.bind_eq_bind, Option.bind_some, els]
      clear h hn hne hl hw hcnt hels hlen hs hps hsh hr ho
      unfold KidsOK at hks
      induction hz generalizing ps with
      | nil => cases hks; exact ⟨true, rfl, by simp⟩
      | @cons x y xs ys hxy _ ih' =>
        cases hks with
        | @cons q _ qs _ hq hqs =>
          obtain ⟨hq1, rfl⟩ := hq
          obtain ⟨b, hb1, hb2⟩ := ih hq1 hxy.1 hxy.2.1 hxy.2.2.symm
          obtain ⟨b', hb1', hb2'⟩ := ih' qs hqs
          simp only [zipP, hb1, Option.bind_eq_bind, Option.bind_some, List.flatMap_cons]
          cases b with
          | true =>
            refine ⟨b', by simpa using hb1', ?_⟩
            have := hb2.1 rfl
            rw [hb2', this]
            exact List.append_right_inj _ |>.symm
          | false =>
            refine ⟨false, rfl, ?_⟩
            simp only [Bool.false_eq_true, false_iff] at hb2 ⊢
            intro hcon
            exact hb2 (List.append_inj hcon hxy.2.2).1

/-- vector `==` is list equality -/
theorem equals_spec (hB : 0 < c.B) (hsame : ∀ a b, same a b = true → a = b) (heq : ∀ x y, eq x y = true ↔ x = y)
    {t u : Tree T} {l m : List T} (ht : Inv c t l) (hu : Inv c u m) :
    ∃ b, equals c same eq t u = some b ∧ (b = true ↔ l = m) := by
  obtain ⟨pre, tl, rfl, hsz, htl, hpre, hroot⟩ := ht
  obtain ⟨pre', tl', rfl, hsz', htl', hpre', hroot'⟩ := hu
  simp only [equals]
  by_cases h1 : t.size = u.size
  · rw [if_neg (by simpa using h1)]
    have hlen : (pre ++ tl).length = (pre' ++ tl').length := by omega
    have hp : pre.length = pre'.length := by rw [hpre, hpre', hlen]
    by_cases h0 : t.size = 0
    · rw [if_pos h0]
      refine ⟨true, rfl, ?_⟩
      have e1 : (pre ++ tl).length = 0 := by omega
      have e2 : (pre' ++ tl').length = 0 := by omega
      rw [List.length_eq_zero_iff] at e1 e2
      simp [e1, e2]
    · rw [if_neg h0]
      obtain ⟨a1, a2, a3⟩ := tailOffset_spec (c := c) (n := (pre ++ tl).length) (by omega)
      rw [← hpre] at a1 a2 a3
      have htl2 : tl.length = tl'.length := by simp only [List.length_append] at hlen; omega
      have hts : tailSize c t.size = tl.length := by
        simp only [tailSize, if_pos h0]
        rw [Nat.and_two_pow_sub_one_eq_mod, hsz]
        obtain ⟨a, ha⟩ := a1
        simp only [List.length_append] at a2 a3 ⊢
        have : pre.length + tl.length - 1 = (tl.length - 1) + 2 ^ c.BL * a := by omega
        rw [this, Nat.add_mul_mod_self_left, Nat.mod_eq_of_lt (by omega)]
        omega
      obtain ⟨b2, hb2, hb2'⟩ := equalsLeaf_spec (c := c) hsame heq (p := .leafSub t.tail tl.length) (l := tl) (m := tl')
        (by simp only [List.length_append] at a2 a3; exact ⟨htl, rfl, by omega, by omega⟩) htl2.symm
      have h1 : ∃ b, (if t.size ≤ 2 ^ c.BL then some true
          else equalsReg c same eq (levels c t.shift) (rootPos c t) u.root) = some b ∧ (b = true ↔ pre = pre') := by
        by_cases hsmall : t.size ≤ 2 ^ c.BL
        · rw [if_pos hsmall]
          have e : tailOffset c (pre ++ tl).length = 0 := tailOffset_unique (dvd_zero _) (by omega) (by omega)
          have e1 : pre.length = 0 := by omega
          have e2 : pre'.length = 0 := by omega
          rw [List.length_eq_zero_iff] at e1 e2
          exact ⟨true, rfl, by simp [e1, e2]⟩
        · rw [if_neg hsmall]
          have hne : pre ≠ [] := by rintro rfl; simp at a3; simp at hsz; omega
          have hne' : pre' ≠ [] := by rintro rfl; simp at hp; exact hne hp
          obtain ⟨L, hs, hr, he, hL⟩ := hroot.cases hne
          obtain ⟨L', hs', hr', he', hL'⟩ := hroot'.cases hne'
          -- same length, same height
          have hLL : L = L' := by
            have b1 := hr.len
            have b2 := hr'.len
            rw [he] at b1
            rw [he'] at b2
            have key : ∀ {a b : Nat}, pre.length ≤ cap c (a + 1) → cap c b < pre.length → b ≤ a := by
              intro a b h1 h2
              by_contra hcon
              have : cap c (a + 1) ≤ cap c b := by
                unfold cap
                refine Nat.pow_le_pow_right (by omega) ?_
                have : c.B * (a + 1) ≤ c.B * b := Nat.mul_le_mul_left _ (by omega)
                omega
              omega
            have c1 : L ≤ L' := by
              rcases hL with h | h
              · omega
              · exact key (by omega) h
            have c2 : L' ≤ L := by
              rcases hL' with h | h
              · omega
              · exact key (by omega) (by omega)
            omega
          subst hLL
          have hlev : levels c t.shift = L + 1 := by rw [hs]; exact levels_shift hB L
          rw [hlev]
          obtain ⟨b, hb, hb'⟩ := equalsReg_spec hB hsame heq (L + 1) (rootPos_ok hsz hpre hs hr he) hr hr'
            (by rw [he', hp])
          exact ⟨b, hb, by rw [hb', he']⟩
      obtain ⟨b1, hb1, hb1'⟩ := h1
      suffices hsuf : ∃ b, ((if t.size ≤ 2 ^ c.BL then some true
          else equalsReg c same eq (levels c t.shift) (rootPos c t) u.root).bind fun a =>
            if a = true then equalsReg c same eq 0 (.leafSub t.tail (tailSize c t.size)) u.tail else some false) = some b ∧
          (b = true ↔ pre ++ tl = pre' ++ tl') by
        obtain ⟨b, hb, hb'⟩ := hsuf
        refine ⟨b, ?_, hb'⟩
        rw [← hb]
        by_cases hsmall : t.size ≤ 2 ^ c.BL
        · simp only [if_pos hsmall]; rfl
        · simp only [if_neg hsmall]; rfl
      rw [hb1]
      simp only [Option.bind_some, hts, htl']
      cases b1 with
      | true =>
        refine ⟨b2, by simpa using hb2, ?_⟩
        rw [hb2', hb1'.1 rfl]
        exact (List.append_right_inj _).symm
      | false =>
        refine ⟨false, rfl, ?_⟩
        simp only [Bool.false_eq_true, false_iff] at hb1' ⊢
        intro hcon
        exact hb1' (List.append_inj hcon hp).1
  · rw [if_pos (by simpa using h1)]
    refine ⟨false, rfl, ?_⟩
    simp only [Bool.false_eq_true, false_iff]
    intro hcon
    rw [hcon] at hsz
    omega

end Vec

/-! ### Iterators -/

namespace VecIter

variable (c) in
/-- the cached leaf, if any, is the aligned chunk of the list starting at the cached base -/
def CacheOK (l : List T) : Option (Nat × List T) → Prop
  | none => True
  | some (b, xs) => 2 ^ c.BL ∣ b ∧ ∃ pre post, l = pre ++ xs ++ post ∧ pre.length = b ∧
      (xs.length = 2 ^ c.BL ∨ l.length ≤ b + xs.length)

variable (c) in
/-- iterator over a well formed vector -/
def OK (x : VecIter T) (l : List T) : Prop := Vec.Inv c x.tree l ∧ x.i ≤ l.length ∧ CacheOK c l x.cache

theorem base_eq (i : Nat) : (i >>> c.BL) <<< c.BL = i / 2 ^ c.BL * 2 ^ c.BL := by
  rw [Nat.shiftLeft_eq, Nat.shiftRight_eq_div_pow]

/-- dereferencing yields the element at the iterator's position whatever was cached, and keeps the cache right -/
theorem deref_spec (hB : 0 < c.B) {x : VecIter T} {l : List T} (h : OK c x l) (hl : Vec.Fits c l.length)
    (hi : x.i < l.length) : ∃ y, deref c x = some (l[x.i], y) ∧ y.tree = x.tree ∧ y.i = x.i ∧ OK c y l := by
  obtain ⟨hinv, -, hcache⟩ := h
  have hp : 0 < 2 ^ c.BL := Nat.two_pow_pos _
  have hdm := Nat.div_add_mod x.i (2 ^ c.BL)
  have hml := Nat.mod_lt x.i hp
  rw [mul_comm] at hdm
  -- the aligned chunk is what `array_for` returns
  have hfetch : ∃ xs, Vec.arrayFor c x.tree x.i = some xs ∧ CacheOK c l (some (x.i / 2 ^ c.BL * 2 ^ c.BL, xs)) := by
    obtain ⟨xs, h1, ⟨pre, post, h2, h3, h4⟩, h5⟩ := Vec.descend_spec hB hinv hl hi
    rw [Nat.and_two_pow_sub_one_eq_mod] at h3 h4 h5
    refine ⟨xs, by simp [Vec.arrayFor, h1, Node.leaf?], Dvd.intro_left _ rfl, pre, post, h2, by omega, ?_⟩
    rcases h5 with h | h
    · exact Or.inl h
    · right; omega
  -- using a right chunk
  have huse : ∀ xs, CacheOK c l (some (x.i / 2 ^ c.BL * 2 ^ c.BL, xs)) →
      xs[x.i &&& (2 ^ c.BL - 1)]? = some l[x.i] := by
    rintro xs ⟨-, pre, post, rfl, h2, h3⟩
    rw [Nat.and_two_pow_sub_one_eq_mod]
    have hlt : x.i % 2 ^ c.BL < xs.length := by
      rcases h3 with h | h <;> omega
    rw [← List.getElem?_eq_getElem hi, List.append_assoc, List.getElem?_append_right (by omega),
      List.getElem?_append_left (by omega)]
    congr 1; omega
  obtain ⟨xs, hf1, hf2⟩ := hfetch
  have key : ∃ xs, (match x.cache with
      | some (b, xs) => if b = (x.i >>> c.BL) <<< c.BL then some xs else Vec.arrayFor c x.tree x.i
      | none => Vec.arrayFor c x.tree x.i) = some xs ∧ CacheOK c l (some (x.i / 2 ^ c.BL * 2 ^ c.BL, xs)) := by
    match hc : x.cache with
    | none => exact ⟨xs, hf1, hf2⟩
    | some (b, ys) =>
      rw [base_eq]
      by_cases hb : b = x.i / 2 ^ c.BL * 2 ^ c.BL
      · simp only [if_pos hb]
        rw [hc] at hcache
        subst hb
        exact ⟨ys, rfl, hcache⟩
      · simp only [if_neg hb]
        exact ⟨xs, hf1, hf2⟩
  obtain ⟨ys, hk1, hk2⟩ := key
  have hd : deref c x = (match x.cache with
      | some (b, xs) => if b = (x.i >>> c.BL) <<< c.BL then some xs else Vec.arrayFor c x.tree x.i
      | none => Vec.arrayFor c x.tree x.i).bind fun xs => xs[x.i &&& (2 ^ c.BL - 1)]?.bind fun v =>
        some (v, { x with cache := some ((x.i >>> c.BL) <<< c.BL, xs) }) := by
    simp only [deref]
    match x.cache with
    | none => rfl
    | some (b, ys) =>
      by_cases hb : b = (x.i >>> c.BL) <<< c.BL
      · simp only [if_pos hb]; rfl
      · simp only [if_neg hb]; rfl
  rw [hd, hk1]
  simp only [Option.bind_some, huse ys hk2, base_eq]
  exact ⟨_, rfl, rfl, rfl, hinv, le_of_lt hi, hk2⟩

end VecIter
end Rrb
