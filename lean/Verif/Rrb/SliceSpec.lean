import Verif.Rrb.PushSpec

/-!
# Specifications of `slice_right_visitor` and `slice_left_visitor`
-/

namespace Rrb

variable {T : Type} {c : Cfg}

/-- not a relaxed position -/
def NotRel (p : Pos T) : Prop := ∀ n s sz, p ≠ .rel n s sz

theorem towardsOh_notrel {p q : Pos T} {idx k i : Nat} (hp : NotRel p) (h : p.towardsOh c idx k = some (q, i)) :
    NotRel q := by
  have key : ∀ n s size cnt q', Pos.towardsRegular c n s size cnt k = some q' → NotRel (T := T) q' := by
    intro n s size cnt q' h
    simp only [Pos.towardsRegular, Option.bind_eq_bind, Option.bind_eq_some_iff, Option.some.injEq] at h
    obtain ⟨cs, -, x, -, rfl⟩ := h
    intro a b d
    split
    · exact kidFull_notrel _ _ _ _ _
    · exact kidReg_notrel _ _ _ _ _ _
  match p with
  | .reg n s size =>
    simp only [Pos.towardsOh, Option.map_eq_some_iff, Prod.mk.injEq] at h
    obtain ⟨q', h1, rfl, -⟩ := h
    exact key _ _ _ _ _ h1
  | .regSub n s size =>
    simp only [Pos.towardsOh, Option.map_eq_some_iff, Prod.mk.injEq] at h
    obtain ⟨q', h1, rfl, -⟩ := h
    exact key _ _ _ _ _ h1
  | .full n s =>
    simp only [Pos.towardsOh, Option.bind_eq_bind, Option.bind_eq_some_iff, Option.some.injEq, Prod.mk.injEq] at h
    obtain ⟨cs, -, x, -, rfl, -⟩ := h
    intro a b d
    exact kidFull_notrel _ _ _ _ _
  | .rel n s sz => exact absurd rfl (hp _ _ _)
  | .leaf _ _ => simp [Pos.towardsOh] at h
  | .leafSub _ _ => simp [Pos.towardsOh] at h
  | .fullLeaf _ => simp [Pos.towardsOh] at h

/-- all children of a non-relaxed node but the last are full -/
theorem PosOK.full_before {L : Nat} {p : Pos T} {l : List T} {r cs} (h : PosOK c (L + 1) p l) (hp : NotRel p)
    (hn : p.node = .inner r cs) {k : Nat} (hk : k < cs.length) : ∀ d ∈ cs.take k, Full c L d := by
  rcases h.regular with ⟨n, size, ⟨ds, e, rfl, hl, hd, he, rfl, hsz⟩, hp', h1⟩ | ⟨cs', rfl, hl, hd, rfl⟩ |
    ⟨cs', hne, hl, hw, rfl, rfl⟩
  · rw [hp'.node] at hn
    simp only [Node.inner.injEq] at hn
    obtain ⟨-, rfl⟩ := hn
    simp at hk
    intro d hd'
    rw [List.take_append_of_le_length (by omega)] at hd'
    exact hd d (List.mem_of_mem_take hd')
  · simp only [Pos.node, Node.inner.injEq] at hn
    obtain ⟨-, rfl⟩ := hn
    exact fun d hd' => hd d (List.mem_of_mem_take hd')
  · exact absurd rfl (hp _ _ _)

/-- prefix of the elements ending inside child `k` -/
theorem take_kid {L k i : Nat} {cs : List (Node T)} {x : Node T} (hx : cs[k]? = some x) (hlo : before L cs k ≤ i)
    (hhi : i < before L cs k + (els L x).length) :
    (cs.flatMap (els L)).take (i + 1) =
      (cs.take k).flatMap (els L) ++ (els L x).take (i - before L cs k + 1) := by
  obtain ⟨hk, rfl⟩ := List.getElem?_eq_some_iff.1 hx
  have : cs = cs.take k ++ (cs[k] :: cs.drop (k + 1)) := by simp
  conv_lhs => rw [this]
  rw [List.flatMap_append, List.flatMap_cons, List.take_append, List.take_of_length_le (by
    simp only [before] at hlo; omega), List.take_append_of_le_length (by simp only [before] at *; omega)]
  congr 2
  simp only [before] at *; omega

/-- a regular node from full children -/
theorem reg_of_full {L : Nat} {ks : List (Node T)} (hne : ks ≠ []) (hl : ks.length ≤ 2 ^ c.B)
    (h : ∀ d ∈ ks, Full c L d) : Reg c (L + 1) (.inner none ks) :=
  ⟨hl, ks.dropLast, ks.getLast hne, (List.dropLast_append_getLast hne).symm,
    fun d hd => h d ((List.dropLast_sublist ks).subset hd), (h _ (List.getLast_mem hne)).reg⟩

variable (c) in
/-- what `slice_right_visitor` returns -/
def SliceRightOK (collapse : Bool) (L : Nat) (p : Pos T) (lt : List T)
    (res : Nat × Option (Node T) × Nat × Node T) : Prop :=
  ∃ t : List T, res.2.2.2 = .leaf t ∧ res.2.2.1 = t.length ∧ 1 ≤ t.length ∧ t.length ≤ 2 ^ c.BL ∧
    (res.2.1 = none → lt = t) ∧
    ∀ n, res.2.1 = some n → ∃ L', L' + 1 ≤ L ∧ (collapse = false → L' + 1 = L) ∧ res.1 = c.BL + c.B * L' ∧
      WF c (L' + 1) n ∧ els (L' + 1) n ++ t = lt ∧
      (NotRel p → Reg c (L' + 1) n ∧ (collapse = true → L' = 0 ∨ cap c L' < (els (L' + 1) n).length)) ∧
      (Str c false L p.node → Str c false (L' + 1) n ∧ (collapse = true → LftOK L' n))

theorem cap_lt_succ (hB : 0 < c.B) (L : Nat) : cap c L < cap c (L + 1) := by
  rw [cap_succ]
  have h1 := cap_pos c L
  have h2 : 1 < 2 ^ c.B := Nat.one_lt_two_pow (by omega)
  exact (Nat.lt_mul_iff_one_lt_right h1).2 h2

theorem sliceRight_spec (hB : 0 < c.B) : ∀ (L : Nat) (collapse : Bool) {p : Pos T} {l : List T},
    PosOK c L p l → ∀ {last i : Nat}, IdxOK c L p last i → i < l.length →
    ∃ res, sliceRight c collapse L p last = some res ∧ SliceRightOK c collapse L p (l.take (i + 1)) res := by
  intro L
  induction L with
  | zero =>
    intro collapse p l h last i hidx hi
    obtain ⟨hn, hc, h1, h2, hix⟩ := h.leaf
    have e1 := hix last i hidx hi
    refine ⟨(0, none, i + 1, .leaf (l.take (i + 1))), ?_, l.take (i + 1), rfl, by simp; omega, by simp; omega,
      by simp; omega, fun _ => rfl, by simp⟩
    simp only [sliceRight, e1, hn, Node.leaf?, hc, Option.bind_eq_bind, Option.bind_some]
    by_cases hlast : i + 1 = l.length
    · rw [if_pos hlast, hlast]; simp
    · rw [if_neg hlast, copyLeaf]
      simp only [Node.leaf?, Option.bind_eq_bind, Option.bind_some]
      rw [slice_zero (by omega)]
      simp only [Option.bind_some, mkLeaf]
      rw [if_pos (by simp; omega)]; rfl
  | succ L ih =>
    intro collapse p l h last i hidx hi
    obtain ⟨r, cs, hn, hne, hl, hw, rfl, hcnt, hsh⟩ := h.inner
    obtain ⟨k, x, hx, hlo, hhi⟩ := exists_kid L cs i hi
    obtain ⟨hix, q, idx', hto, hqok, hqn, hqi⟩ := h.towards hB hn hidx hx hlo hhi
    have hk : k < cs.length := (List.getElem?_eq_some_iff.1 hx).1
    have hxw : WF c L x := hw x (List.mem_of_getElem? hx)
    have htk := take_kid hx hlo hhi
    -- the children before `k` are followed by another one, so they are complete
    have hpw := h.wf.1
    have hsplit : cs = cs.take k ++ x :: cs.drop (k + 1) := by
      obtain ⟨hk', rfl⟩ := List.getElem?_eq_some_iff.1 hx
      simp
    have hsk : Str c false (L + 1) p.node → SL c true L (cs.take k) ∧ Str c false L x := by
      intro hs
      have := Str.kids hpw hs
      rw [hn] at this
      simp only [kids] at this
      rw [hsplit, SL.append, SL.cons] at this
      exact ⟨by simpa using this.1, this.2.1.mono (by simp)⟩
    simp only [sliceRight, hix, hto, hn, hsh, Node.inner?, Option.bind_eq_bind, Option.bind_some]
    by_cases hcol : collapse = true ∧ k = 0
    · obtain ⟨rfl, rfl⟩ := hcol
      rw [if_pos ⟨rfl, rfl⟩]
      rw [before_zero] at *
      obtain ⟨res, hres, t, h1, h2, h3, h4, h5, h6⟩ := ih true hqok hqi (by omega)
      refine ⟨res, hres, t, h1, h2, h3, h4, ?_, ?_⟩
      · intro h; rw [htk, ← h5 h]; simp
      · intro n hn'
        obtain ⟨L', a1, a2, a3, a4, a5, a6, a7⟩ := h6 n hn'
        exact ⟨L', by omega, by simp, a3, a4, by rw [htk, a5]; simp, fun hp => a6 (towardsOh_notrel hp hto),
          fun hs => a7 (by rw [hqn]; exact (hsk hs).2)⟩
    · rw [if_neg hcol]
      obtain ⟨res, hres, t, h1, h2, h3, h4, h5, h6⟩ := ih false hqok hqi (by omega)
      obtain ⟨sh, next, ts, tail⟩ := res
      simp only at h1 h2 h5 h6
      subst h1 h2
      rw [hres]
      simp only [Option.bind_some]
      have hlen := congrArg List.length htk
      simp only [List.length_append, List.length_take] at hlen
      have hb : ((cs.take k).flatMap (els L)).length = before L cs k := rfl
      cases next with
      | some nx =>
        obtain ⟨L', a1, a2, a3, a4, a5, a6, a7⟩ := h6 nx rfl
        have := a2 trivial
        subst this
        have hk2 : collapse = true → 2 ≤ (cs.take k ++ [nx]).length := by
          intro hc
          have : k ≠ 0 := fun h0 => hcol ⟨hc, h0⟩
          simp; omega
        have hlen' := congrArg List.length a5
        simp only [List.length_append, List.length_take] at hlen'
        simp only [slice_zero (le_of_lt hk), Option.bind_some]
        by_cases hrel : NotRel p
        · have hf := h.full_before hrel hn hk
          have hr : Reg c (L' + 1 + 1) (.inner none (cs.take k ++ [nx])) :=
            Reg.snoc (by simp; omega) hf (a6 (towardsOh_notrel hrel hto)).1
          refine ⟨(c.BL + c.B * (L' + 1), some (.inner none (cs.take k ++ [nx])), t.length, .leaf t), ?_, t, rfl, rfl,
            h3, h4, by simp, ?_⟩
          · have : mkInner c (cs.take k ++ [nx]) = some (.inner none (cs.take k ++ [nx])) := by
              rw [mkInner, if_pos (by simp; omega)]
            cases p with
            | rel n s sz => exact absurd rfl (hrel _ _ _)
            | _ => simp only [this, Option.bind_some]
          · rintro n ⟨⟩
            refine ⟨L' + 1, le_refl _, fun _ => rfl, rfl, hr.wf, ?_, fun _ => ⟨hr, fun hc => Or.inr ?_⟩,
              fun _ => ⟨hr.str, fun hc => Or.inl (hk2 hc)⟩⟩
            · rw [htk, ← a5]; simp [els]
            · have hk0 : 0 < k := by
                rcases Nat.eq_zero_or_pos k with h0 | h0
                · exact absurd ⟨hc, h0⟩ hcol
                · exact h0
              have e1 : (els (L' + 1 + 1) (.inner none (cs.take k ++ [nx]))).length =
                  k * cap c (L' + 1) + (els (L' + 1) nx).length := by
                simp only [els, List.flatMap_append, List.length_append, List.flatMap_cons, List.flatMap_nil,
                  List.append_nil]
                rw [els_len_const (fun y hy => (hf y hy).len)]
                simp; left; omega
              have := a4.len
              have : cap c (L' + 1) ≤ k * cap c (L' + 1) := Nat.le_mul_of_pos_left _ hk0
              rw [e1]; omega
        · have : ∃ n s sz, p = .rel n s sz := by
            unfold NotRel at hrel; push_neg at hrel; exact hrel
          obtain ⟨n, s, sz, rfl⟩ := this
          rcases h.regular with ⟨n', size', -, hp', -⟩ | ⟨cs', h, -⟩ | ⟨cs', -, -, -, -, hp⟩
          · rcases hp' with h | ⟨h, -⟩ <;> simp at h
          · simp at h
          · simp only [Pos.rel.injEq] at hp
            obtain ⟨rfl, rfl, rfl⟩ := hp
            simp only [Pos.node, Node.inner.injEq] at hn
            obtain ⟨-, rfl⟩ := hn
            simp only [IdxOK] at hidx
            subst hidx
            obtain ⟨m, hm, hm1, hm2, rfl⟩ := pushTailFinish_ok (c := c) (L := L' + 1) (k := k) (x := nx)
              (r := none) (tot := last + 1 - t.length)
              (le_of_lt hk) (by omega) hw a4 (by omega)
            simp only [pushTailFinish, Node.inner?, Option.bind_eq_bind, Option.bind_some, slice_zero (le_of_lt hk)] at hm
            refine ⟨(c.BL + c.B * (L' + 1), some (relOf (L' + 1) (cs'.take k ++ [nx])), t.length, .leaf t), ?_, t, rfl, rfl, h3, h4, by simp, ?_⟩
            · have hk' : k ≤ (psums 0 (cs'.map (fun x => (els (L' + 1) x).length))).length := by
                simp [psums_length]; omega
              simp only [slice_zero hk', Option.bind_some] at hm ⊢
              simp only [hm, Option.bind_some]
            · rintro n ⟨⟩
              refine ⟨L' + 1, le_refl _, fun _ => rfl, rfl, hm1, ?_, fun hp => absurd rfl (hp _ _ _),
                fun hs => ⟨?_, fun hc => Or.inl (hk2 hc)⟩⟩
              · rw [htk, ← a5, hm2]; simp
              · rw [relOf, Str.rel, SL.append, SL.cons]
                refine ⟨by simpa using (hsk hs).1, ?_, SL.nil⟩
                simpa using (a7 (by rw [hqn]; exact (hsk hs).2)).1
      | none =>
        have h5 := h5 rfl
        by_cases hk0 : k = 0
        · subst hk0
          simp only [if_true]
          refine ⟨_, rfl, t, rfl, rfl, h3, h4, ?_, by simp⟩
          intro _
          rw [htk, ← h5]; simp
        · simp only [if_neg hk0]
          by_cases hc1 : collapse = true ∧ k = 1 ∧ c.BL < c.BL + c.B * L
          · simp only [if_pos hc1]
            obtain ⟨rfl, rfl, hL⟩ := hc1
            have hL' : L ≠ 0 := by rintro rfl; simp at hL
            obtain ⟨L', rfl⟩ : ∃ L', L = L' + 1 := ⟨L - 1, by omega⟩
            obtain ⟨x0, hx0⟩ : ∃ x0, cs[0]? = some x0 := ⟨_, List.getElem?_eq_getElem (by omega)⟩
            have ht1 : cs.take 1 = [x0] := by
              match cs, hx0 with
              | y :: ys, hx0 => simp at hx0; subst hx0; simp
            simp only [hx0, Option.bind_some, shift_sub]
            refine ⟨_, rfl, t, rfl, rfl, h3, h4, by simp, ?_⟩
            rintro n ⟨⟩
            refine ⟨L', by omega, by simp, rfl, hw _ (List.mem_of_getElem? hx0), ?_, fun hp => ?_, fun hs => ?_⟩
            · rw [htk, h5, ht1]; simp
            · have hf := h.full_before hp hn hk x0 (by simp [ht1])
              refine ⟨hf.reg, fun _ => Or.inr ?_⟩
              rw [hf.len]; exact cap_lt_succ hB L'
            · have hst := (SL.true_iff.1 (hsk hs).1) x0 (by simp [ht1])
              exact ⟨hst.mono (by simp), fun _ => hst.lft hB (hw _ (List.mem_of_getElem? hx0))⟩
          · simp only [if_neg hc1, slice_zero (le_of_lt hk), Option.bind_some]
            have htne : cs.take k ≠ [] := by
              rw [Ne, List.take_eq_nil_iff]; push_neg; exact ⟨hk0, hne⟩
            have hlft : ∀ r', collapse = true → LftOK L (.inner r' (cs.take k)) := by
              intro r' hc
              cases L with
              | zero => trivial
              | succ L =>
                left
                have hk2 : 2 ≤ k := by
                  by_contra hcon
                  apply hc1
                  refine ⟨hc, by omega, ?_⟩
                  have : 0 < c.B * (L + 1) := Nat.mul_pos hB (by omega)
                  omega
                simp [kids]; omega
            by_cases hrel : NotRel p
            · have hf := h.full_before hrel hn hk
              have hr : Reg c (L + 1) (.inner none (cs.take k)) := reg_of_full htne (by simp; omega) hf
              refine ⟨(c.BL + c.B * L, some (.inner none (cs.take k)), t.length, .leaf t), ?_, t, rfl, rfl, h3, h4,
                by simp, ?_⟩
              · have : mkInner c (cs.take k) = some (.inner none (cs.take k)) := by
                  rw [mkInner, if_pos (by simp; omega)]
                cases p with
                | rel n s sz => exact absurd rfl (hrel _ _ _)
                | _ => simp only [this, Option.bind_some]
              · rintro n ⟨⟩
                refine ⟨L, le_refl _, fun _ => rfl, rfl, hr.wf, ?_, fun _ => ⟨hr, fun hc => ?_⟩,
                  fun _ => ⟨hr.str, hlft _⟩⟩
                · rw [htk, ← h5]; simp [els]
                · by_cases hL : L = 0
                  · left; exact hL
                  · right
                    have hk2 : 2 ≤ k := by
                      by_contra hcon
                      apply hc1
                      refine ⟨hc, by omega, ?_⟩
                      have : 0 < c.B * L := Nat.mul_pos hB (by omega)
                      omega
                    have e1 : (els (L + 1) (.inner none (cs.take k))).length = k * cap c L := by
                      simp only [els]
                      rw [els_len_const (fun y hy => (hf y hy).len)]
                      simp; left; omega
                    rw [e1]
                    have := cap_pos c L
                    have : 2 * cap c L ≤ k * cap c L := Nat.mul_le_mul_right _ hk2
                    omega
            · have : ∃ n s sz, p = .rel n s sz := by
                unfold NotRel at hrel; push_neg at hrel; exact hrel
              obtain ⟨n, s, sz, rfl⟩ := this
              rcases h.regular with ⟨n', size', -, hp', -⟩ | ⟨cs', h, -⟩ | ⟨cs', -, -, -, -, hp⟩
              · rcases hp' with h | ⟨h, -⟩ <;> simp at h
              · simp at h
              · simp only [Pos.rel.injEq] at hp
                obtain ⟨rfl, rfl, rfl⟩ := hp
                simp only [Pos.node, Node.inner.injEq] at hn
                obtain ⟨-, rfl⟩ := hn
                refine ⟨(c.BL + c.B * L, some (.inner (some (psums 0 ((cs'.take k).map (fun x => (els L x).length))))
                  (cs'.take k)), t.length, .leaf t), ?_, t, rfl, rfl, h3, h4, by simp, ?_⟩
                · simp only [slice_zero (show k ≤ (psums 0 (cs'.map (fun x => (els L x).length))).length by
                    simp [psums_length]; omega), Option.bind_some, psums_take, List.map_take, mkInnerR]
                  rw [if_pos (by simp; omega)]; rfl
                · rintro n ⟨⟩
                  refine ⟨L, le_refl _, fun _ => rfl, rfl, WF.relaxed htne (by simp; omega)
                    (fun y hy => hw y (List.mem_of_mem_take hy)), ?_, fun hp => absurd rfl (hp _ _ _),
                    fun hs => ⟨?_, hlft _⟩⟩
                  · rw [htk, ← h5]; simp [els]
                  · rw [Str.rel]; exact (hsk hs).1.mono (by simp)

/-! ### `slice_left_visitor` -/

/-- positions whose size information is exact (`*_sub_pos`, full and relaxed positions) -/
def SubPos : Pos T → Prop
  | .leaf _ _ => False
  | .reg _ _ _ => False
  | _ => True

theorem kidFull_sub (s : Nat) (x : Node T) : SubPos (Pos.kidFull c s x) := by
  unfold Pos.kidFull; split <;> trivial

theorem kidRegSub_sub (s z : Nat) (x : Node T) : SubPos (Pos.kidRegSub c s z x) := by
  unfold Pos.kidRegSub; split <;> trivial

theorem maybeRelaxedSub_sub {s z : Nat} {x : Node T} {q : Pos T} (h : Pos.maybeRelaxedSub x s z = some q) : SubPos q := by
  unfold Pos.maybeRelaxedSub at h
  cases x with
  | leaf xs => simp [Node.relaxed?] at h
  | inner r cs => cases r <;> simp [Node.relaxed?] at h <;> subst h <;> trivial

theorem kidRel_sub {s z : Nat} {x : Node T} {q : Pos T} (h : Pos.kidRel c s z x = some q) : SubPos q := by
  unfold Pos.kidRel at h
  split at h
  · simp at h; subst h; trivial
  · exact maybeRelaxedSub_sub h

theorem relKid_sub {s k : Nat} {sz : List Nat} {cs : List (Node T)} {q : Pos T} (h : Pos.relKid c s sz cs k = some q) :
    SubPos q := by
  simp only [Pos.relKid, Option.bind_eq_bind, Option.bind_eq_some_iff] at h
  obtain ⟨_, _, _, _, _, _, h⟩ := h
  exact kidRel_sub h

theorem before_of_full {L : Nat} {cs : List (Node T)} (hd : ∀ d ∈ cs, Full c L d) {k : Nat} (hk : k ≤ cs.length) :
    before L cs k = k * cap c L := by
  simp only [before]
  rw [els_len_const (k := cap c L) (fun y hy => (hd y (List.mem_of_mem_take hy)).len)]
  simp [hk]

theorem Reg.decomp {L : Nat} {n : Node T} (h : Reg c (L + 1) n) : ∃ ds e, n = .inner none (ds ++ [e]) ∧
      ds.length + 1 ≤ 2 ^ c.B ∧ (∀ d ∈ ds, Full c L d) ∧
        Reg c L e ∧ els (L + 1) n = (ds ++ [e]).flatMap (els L) ∧
        (els (L + 1) n).length = ds.length * cap c L + (els L e).length := by
  match n, h with
  | .inner none cs, hn =>
    simp only [Reg] at hn
    obtain ⟨hl, ds, e, rfl, hd, he⟩ := hn
    refine ⟨ds, e, rfl, by simpa using hl, hd, he, rfl, ?_⟩
    simp only [els, List.flatMap_append, List.flatMap_cons, List.flatMap_nil, List.append_nil,
      List.length_append]
    rw [els_len_const (fun x hx => (hd x hx).len)]

/-- a member of the children of a regular node -/
theorem reg_kid {L k : Nat} {ds : List (Node T)} {e x : Node T} (hd : ∀ d ∈ ds, Full c L d) (he : Reg c L e)
    (hx : (ds ++ [e])[k]? = some x) : (k < ds.length ∧ Full c L x) ∨ (k = ds.length ∧ x = e) := by
  obtain ⟨hk, hxe⟩ := List.getElem?_eq_some_iff.1 hx
  simp at hk
  rcases Nat.lt_or_ge k ds.length with h | h
  · left
    rw [List.getElem?_append_left h] at hx
    exact ⟨h, hd x (List.mem_of_getElem? hx)⟩
  · right
    have : k = ds.length := by omega
    subst this
    simp at hxe
    exact ⟨rfl, hxe.symm⟩

section
variable {L : Nat} {p : Pos T} {l : List T} {r : Option (List Nat)} {cs : List (Node T)}

/-- sizes a sub position reports -/
theorem PosOK.sub_sizes (h : PosOK c (L + 1) p l) (hsub : SubPos p) (hn : p.node = .inner r cs) {k : Nat} {x : Node T}
    (hx : cs[k]? = some x) :
    p.sizeBefore k = some (before L cs k) ∧ p.sizeAt k = some (els L x).length := by
  obtain ⟨hk, -⟩ := List.getElem?_eq_some_iff.1 hx
  match p, h with
  | .regSub n s size, h =>
    obtain ⟨rfl, hr, rfl, rfl⟩ := h
    obtain ⟨ds, e, rfl, hl, hd, he, hels, hlen⟩ := hr.decomp
    simp only [Pos.node, Node.inner.injEq] at hn
    obtain ⟨-, rfl⟩ := hn
    obtain ⟨e1, e2, -⟩ := he.len
    simp at hk
    simp only [Pos.sizeBefore, Pos.sizeAt, Nat.shiftLeft_eq, Nat.shiftRight_eq_div_pow, pow_shift, hlen]
    rw [reg_count e1 e2, before_full _ _ _ hd _ (by omega)]
    refine ⟨rfl, ?_⟩
    rcases reg_kid hd he hx with ⟨h1, h2⟩ | ⟨rfl, rfl⟩
    · rw [if_neg (by omega), h2.len]; simp
    · rw [if_pos rfl]; simp
  | .full n s, h =>
    obtain ⟨rfl, hr, rfl⟩ := h
    match n, hr, hn with
    | .inner none cs', hr, hn =>
      simp only [Pos.node, Node.inner.injEq] at hn
      obtain ⟨-, rfl⟩ := hn
      simp only [Pos.sizeBefore, Pos.sizeAt, Nat.shiftLeft_eq, pow_shift]
      rw [before_of_full hr.2 (by omega), (hr.2 x (List.mem_of_getElem? hx)).len]
      simp
    | .inner (some _) _, hr, _ => simp [Full] at hr
    | .leaf _, hr, _ => simp [Full] at hr
  | .rel n s sz, h =>
    obtain ⟨rfl, hr, rfl, cs', rfl⟩ := h
    simp only [WF] at hr
    obtain ⟨h1, h2, h3, rfl⟩ := hr
    simp only [Pos.node, Node.inner.injEq] at hn
    obtain ⟨-, rfl⟩ := hn
    refine ⟨?_, sizeAt_rel hx⟩
    simp only [Pos.sizeBefore]
    rw [szBefore_psums _ _ (by simpa using le_of_lt hk), before_eq_sum]
  | .leaf _ _, h => simp [PosOK] at h
  | .leafSub _ _, h => simp [PosOK] at h
  | .fullLeaf _, h => simp [PosOK] at h
  | .reg _ _ _, _ => simp [SubPos] at hsub

theorem PosOK.towardsSub (hB : 0 < c.B) (h : PosOK c (L + 1) p l) (hsub : SubPos p) (hn : p.node = .inner r cs)
    (h32 : l.length ≤ 2 ^ 32) (hs32 : c.BL + c.B * L < 32) {k i : Nat} {x : Node T}
    (hx : cs[k]? = some x) (hlo : before L cs k ≤ i) (hhi : i < before L cs k + (els L x).length) :
    p.subindex i = some k ∧ ∃ q, p.towardsSubOh c i k = some (q, i - before L cs k) ∧ PosOK c L q (els L x) ∧
      q.node = x ∧ SubPos q := by
  obtain ⟨hk, -⟩ := List.getElem?_eq_some_iff.1 hx
  match p, h with
  | .regSub n s size, h =>
    obtain ⟨rfl, hr, rfl, rfl⟩ := h
    obtain ⟨ds, e, rfl, hl, hd, he, hels, hlen⟩ := hr.decomp
    simp only [Pos.node, Node.inner.injEq] at hn
    obtain ⟨-, rfl⟩ := hn
    obtain ⟨e1, e2, -⟩ := he.len
    simp at hk
    rw [before_full _ _ _ hd _ (by omega)] at hlo hhi ⊢
    have hxl : (els L x).length ≤ cap c L := by
      rcases reg_kid hd he hx with ⟨h1, h2⟩ | ⟨rfl, rfl⟩
      · rw [h2.len]
      · exact e2
    have hshl : Pos.shl32 k (c.BL + c.B * L) = some (k * cap c L) := by
      simp only [Pos.shl32, if_pos hs32, Nat.shiftLeft_eq, pow_shift]
      rw [Nat.mod_eq_of_lt]
      have : k * cap c L ≤ ds.length * cap c L := Nat.mul_le_mul_right _ (by omega)
      omega
    refine ⟨?_, ?_⟩
    · simp only [Pos.subindex, Nat.shiftRight_eq_div_pow, pow_shift]
      rw [(Nat.div_eq_iff (cap_pos c L)).2 ⟨hlo, by omega⟩]
    · simp only [Pos.towardsSubOh, Pos.towardsSubRegular, Node.inner?, hx, hshl, Option.bind_eq_bind, Option.bind_some,
        Nat.one_shiftLeft, pow_shift, hlen]
      refine ⟨_, rfl, ?_, ?_, ?_⟩
      · rcases reg_kid hd he hx with ⟨h1, h2⟩ | ⟨rfl, rfl⟩
        · have : (k + 1) * cap c L ≤ ds.length * cap c L := Nat.mul_le_mul_right _ (by omega)
          rw [Nat.add_mul] at this
          rw [if_pos (by omega)]
          exact kidFull_ok hB h2
        · rw [Nat.add_sub_cancel_left]
          split
          · exact kidFull_ok hB (he.full_of_len (by omega))
          · exact kidRegSub_ok hB he rfl
      · split
        · exact kidFull_node _ _
        · exact kidRegSub_node _ _ _
      · split
        · exact kidFull_sub _ _
        · exact kidRegSub_sub _ _ _
  | .full n s, h =>
    obtain ⟨rfl, hr, rfl⟩ := h
    match n, hr, hn with
    | .inner none cs', hr, hn =>
      simp only [Pos.node, Node.inner.injEq] at hn
      obtain ⟨-, rfl⟩ := hn
      have hf := hr.2 x (List.mem_of_getElem? hx)
      rw [before_of_full hr.2 (by omega)] at hlo hhi ⊢
      rw [hf.len] at hhi
      refine ⟨?_, ?_⟩
      · simp only [Pos.subindex, Nat.shiftRight_eq_div_pow, pow_shift]
        rw [(Nat.div_eq_iff (cap_pos c L)).2 ⟨hlo, by omega⟩]
      · simp only [Pos.towardsSubOh, Node.inner?, hx, Option.bind_eq_bind, Option.bind_some, Nat.shiftLeft_eq,
          pow_shift]
        exact ⟨_, rfl, kidFull_ok hB hf, kidFull_node _ _, kidFull_sub _ _⟩
    | .inner (some _) _, hr, _ => simp [Full] at hr
    | .leaf _, hr, _ => simp [Full] at hr
  | .rel n s sz, h =>
    obtain ⟨h1, q, idx', h2, h3, h4, h5⟩ := h.towards hB hn (idx := i) rfl hx hlo hhi
    obtain ⟨rfl, hr, rfl, cs', rfl⟩ := h
    simp only [WF] at hr
    obtain ⟨w1, w2, w3, rfl⟩ := hr
    simp only [Pos.node, Node.inner.injEq] at hn
    obtain ⟨-, rfl⟩ := hn
    refine ⟨h1, ?_⟩
    obtain ⟨q, hq, hok, hqn⟩ := relKid_ok hB w3 k x hx
    have hb := szBefore_psums (cs'.map (fun x => (els L x).length)) k (by simpa using le_of_lt hk)
    rw [← before_eq_sum] at hb
    simp only [Pos.towardsSubOh, Node.inner?, hb, hq, Option.bind_eq_bind, Option.bind_some]
    exact ⟨q, rfl, hok, hqn, relKid_sub hq⟩
  | .leaf _ _, h => simp [PosOK] at h
  | .leafSub _ _, h => simp [PosOK] at h
  | .fullLeaf _, h => simp [PosOK] at h
  | .reg _ _ _, _ => simp [SubPos] at hsub

theorem fullSizes_eq (w : Nat) : ∀ (n init : Nat) (xs : List Nat), xs.length = n → (∀ x ∈ xs, x = w) →
    fullSizes w n init = psums init xs
  | 0, _, [], _, _ => rfl
  | n + 1, init, x :: xs, hl, h => by
    simp only [fullSizes, psums]
    rw [h x (by simp), fullSizes_eq w n _ xs (by simpa using hl) (fun y hy => h y (by simp [hy]))]

theorem psums_getLast (xs : List Nat) (init : Nat) : (psums init xs).getLast?.getD init = init + xs.sum := by
  induction xs generalizing init with
  | nil => simp [psums]
  | cons x xs ih =>
    simp only [psums, List.getLast?_cons, Option.getD_some, ih, List.sum_cons]
    omega

theorem relSizes_eq (xs : List Nat) : ∀ (a init : Nat),
    relSizes a init (psums a xs) = psums init xs := by
  induction xs with
  | nil => intros; rfl
  | cons x xs ih =>
    intro a init
    simp only [psums, relSizes, Nat.add_sub_cancel_left, ih]

theorem psums_drop (a : Nat) (xs : List Nat) (k : Nat) :
    (psums a xs).drop k = psums (a + (xs.take k).sum) (xs.drop k) := by
  induction k generalizing a xs with
  | zero => simp
  | succ k ih =>
    cases xs with
    | nil => simp [psums]
    | cons x xs => simp [psums, ih, Nat.add_assoc]

/-- `copy_sizes` appends the exact cumulative sizes of the remaining children -/
theorem PosOK.copySizes (h : PosOK c (L + 1) p l) (hsub : SubPos p) (hn : p.node = .inner r cs) {k : Nat} 
    (hk : k ≤ cs.length) (init : Nat) :
    copySizes p k (cs.length - k) init = some (psums init ((cs.drop k).map (fun x => (els L x).length))) := by
  have hsizes := fun {k x} hx => (h.sub_sizes hsub hn (k := k) (x := x) hx).2
  match p, h with
  | .regSub n s size, h =>
    obtain ⟨rfl, hr, rfl, rfl⟩ := h
    obtain ⟨ds, e, rfl, hl, hd, he, hels, hlen⟩ := hr.decomp
    simp only [Pos.node, Node.inner.injEq] at hn
    obtain ⟨-, rfl⟩ := hn
    simp only [Rrb.copySizes]
    by_cases hk0 : (ds ++ [e]).length - k = 0
    · rw [if_pos hk0, List.drop_of_length_le (by omega)]; rfl
    · rw [if_neg hk0]
      simp only [List.length_append, List.length_singleton] at hk hk0 ⊢
      have e1 : k + (ds.length + 1 - k) - 1 = ds.length := by omega
      have hx : (ds ++ [e])[ds.length]? = some e := by simp
      rw [e1, hsizes hx]
      simp only [Option.bind_eq_bind, Option.bind_some]
      rw [List.drop_append_of_le_length (by omega), List.map_append, psums_append]
      have e2 : fullSizes (1 <<< (c.BL + c.B * L)) (ds.length + 1 - k - 1) init =
          psums init ((ds.drop k).map (fun x => (els L x).length)) := by
        refine fullSizes_eq _ _ _ _ (by simp; omega) ?_
        intro y hy
        simp only [List.mem_map] at hy
        obtain ⟨z, hz, rfl⟩ := hy
        rw [(hd z (List.mem_of_mem_drop hz)).len, Nat.one_shiftLeft]; rfl
      rw [e2, psums_getLast]
      simp [psums]
  | .full n s, h =>
    obtain ⟨rfl, hr, rfl⟩ := h
    match n, hr, hn with
    | .inner none cs', hr, hn =>
      simp only [Pos.node, Node.inner.injEq] at hn
      obtain ⟨-, rfl⟩ := hn
      simp only [Rrb.copySizes]
      congr 1
      refine fullSizes_eq _ _ _ _ (by simp) ?_
      intro y hy
      simp only [List.mem_map] at hy
      obtain ⟨z, hz, rfl⟩ := hy
      rw [(hr.2 z (List.mem_of_mem_drop hz)).len, Nat.one_shiftLeft]; rfl
    | .inner (some _) _, hr, _ => simp [Full] at hr
    | .leaf _, hr, _ => simp [Full] at hr
  | .rel n s sz, h =>
    obtain ⟨rfl, hr, rfl, cs', rfl⟩ := h
    simp only [WF] at hr
    obtain ⟨w1, w2, w3, rfl⟩ := hr
    simp only [Pos.node, Node.inner.injEq] at hn
    obtain ⟨-, rfl⟩ := hn
    have hb := szBefore_psums (cs'.map (fun x => (els L x).length)) k (by simpa using hk)
    simp only [Rrb.copySizes, hb, Option.bind_eq_bind, Option.bind_some]
    rw [slice_ok (by omega) (by simp [psums_length]; omega)]
    simp only [Option.bind_some, Option.some.injEq]
    have e1 : ((psums 0 (cs'.map (fun x => (els L x).length))).drop k).take (k + (cs'.length - k) - k) =
        (psums 0 (cs'.map (fun x => (els L x).length))).drop k := List.take_of_length_le (by simp [psums_length])
    rw [e1, psums_drop, Nat.zero_add, relSizes_eq, List.map_drop]
  | .leaf _ _, h => simp [PosOK] at h
  | .leafSub _ _, h => simp [PosOK] at h
  | .fullLeaf _, h => simp [PosOK] at h
  | .reg _ _ _, _ => simp [SubPos] at hsub

end

/-- suffix of the elements starting inside child `k` -/
theorem drop_kid {L k i : Nat} {cs : List (Node T)} {x : Node T} (hx : cs[k]? = some x) (hlo : before L cs k ≤ i)
    (hhi : i < before L cs k + (els L x).length) :
    (cs.flatMap (els L)).drop i =
      (els L x).drop (i - before L cs k) ++ (cs.drop (k + 1)).flatMap (els L) := by
  obtain ⟨hk, rfl⟩ := List.getElem?_eq_some_iff.1 hx
  have : cs = cs.take k ++ (cs[k] :: cs.drop (k + 1)) := by simp
  conv_lhs => rw [this]
  rw [List.flatMap_append, List.flatMap_cons, List.drop_append, List.drop_of_length_le (by
    simp only [before] at hlo; omega), List.drop_append_of_le_length (by simp only [before] at *; omega)]
  rfl

/-- `slice_left_visitor`: dropping `i` elements.  The 32-bit shifts of `towards_sub_oh_regular` are why
sizes are limited. -/
theorem sliceLeft_spec (hB : 0 < c.B) : ∀ (L : Nat) (collapse : Bool) {p : Pos T} {l : List T},
    PosOK c L p l → SubPos p → l.length ≤ 2 ^ 32 → (∀ L', L' + 1 ≤ L → c.BL + c.B * L' < 32) → ∀ {i : Nat}, i < l.length →
    ∃ sh n L', sliceLeft c collapse L p i = some (sh, n) ∧ L' ≤ L ∧ (collapse = false → L' = L) ∧
      (1 ≤ L → 1 ≤ L' ∧ sh = c.BL + c.B * (L' - 1) ∧ ∃ sz ds, n = .inner (some sz) ds) ∧
      WF c L' n ∧ els L' n = l.drop i ∧ (∀ f, Str c f L p.node → Str c f L' n) ∧
      (collapse = true → 1 ≤ L → LftOK (L' - 1) n) := by
  intro L
  induction L with
  | zero =>
    intro collapse p l h hsub h32 hs32 i hi
    obtain ⟨hn, hc, h1, h2, hix⟩ := h.leaf
    have e1 := hix i i IdxOK.of_eq hi
    refine ⟨0, .leaf (l.drop i), 0, ?_, le_refl _, fun _ => rfl, by omega, ⟨by simp; omega, by simp; omega⟩, rfl,
      fun _ _ => trivial, by simp⟩
    simp only [sliceLeft, e1, hn, copyLeafI, Node.leaf?, hc, Option.bind_eq_bind, Option.bind_some]
    rw [slice_ok (by omega) (le_refl _)]
    simp only [Option.bind_some, mkLeaf]
    rw [if_pos (by simp; omega), List.take_of_length_le (by simp)]; rfl
  | succ L ih =>
    intro collapse p l h hsub h32 hs32 i hi
    obtain ⟨r, cs, hn, hne, hl, hw, rfl, hcnt, hsh⟩ := h.inner
    obtain ⟨k, x, hx, hlo, hhi⟩ := exists_kid L cs i hi
    obtain ⟨hix, q, hto, hqok, hqn, hqs⟩ := h.towardsSub hB hsub hn h32 (hs32 L (le_refl _)) hx hlo hhi
    obtain ⟨hsb, hsa⟩ := h.sub_sizes hsub hn hx
    have hk : k < cs.length := (List.getElem?_eq_some_iff.1 hx).1
    have hxw : WF c L x := hw x (List.mem_of_getElem? hx)
    have hdk := drop_kid hx hlo hhi
    have hsplit : cs = cs.take k ++ x :: cs.drop (k + 1) := by
      obtain ⟨hk', rfl⟩ := List.getElem?_eq_some_iff.1 hx
      simp
    have hpw := h.wf.1
    have hsk : ∀ f, Str c f (L + 1) p.node → Str c (f || !(cs.drop (k + 1)).isEmpty) L x ∧ SL c f L (cs.drop (k + 1)) := by
      intro f hs
      have := Str.kids hpw hs
      rw [hn] at this
      simp only [kids] at this
      rw [hsplit, SL.append, SL.cons] at this
      exact this.2
    have hx32 : (els L x).length ≤ 2 ^ 32 := by
      have h1 := before_succ L cs k x hx
      have h2 := before_mono L cs (i := k + 1) (j := cs.length) (by omega)
      rw [before_all _ _ _ (le_refl _)] at h2
      omega
    simp only [sliceLeft, hix, hto, hsb, hsa, hcnt, hsh, Option.bind_eq_bind, Option.bind_some]
    by_cases hcol : collapse = true ∧ c.BL < c.BL + c.B * L ∧ k = cs.length - 1
    · rw [if_pos hcol]
      obtain ⟨rfl, hL, hkl⟩ := hcol
      have hL' : L ≠ 0 := by rintro rfl; simp at hL
      obtain ⟨sh, n, L', a1, a2, a3, a4, a5, a6, a7, a8⟩ := ih true hqok hqs hx32 (fun L' h => hs32 L' (by omega))
        (i := i - before L cs k) (by omega)
      refine ⟨sh, n, L', a1, by omega, by simp, fun _ => a4 (by omega), a5, ?_,
        fun f hs => a7 f (by rw [hqn]; exact (hsk f hs).1.mono (by intro h; simp [h])), fun hc _ => a8 hc (by omega)⟩
      rw [a6, hdk, List.drop_of_length_le (by omega : cs.length ≤ k + 1)]; simp
    · rw [if_neg hcol]
      obtain ⟨sh, n0, L', a1, a2, a3, a4, a5, a6, a7, -⟩ := ih false hqok hqs hx32 (fun L' h => hs32 L' (by omega))
        (i := i - before L cs k) (by omega)
      have := a3 rfl
      subst this
      have hcs := h.copySizes hsub hn (k := k + 1) (by omega) ((els L' x).length - (i - before L' cs k))
      rw [Nat.sub_add_eq] at hcs
      have hn0 : (els L' n0).length = (els L' x).length - (i - before L' cs k) := by rw [a6]; simp
      simp only [a1, hcs, hn, Node.inner?, Option.bind_some]
      rw [slice_ok (by omega) (le_refl _)]
      simp only [Option.bind_some, mkInnerR]
      rw [List.take_of_length_le (by simp), if_pos (by simp; omega)]
      refine ⟨c.BL + c.B * L', .inner (some (psums 0 ((n0 :: cs.drop (k + 1)).map (fun x => (els L' x).length))))
        (n0 :: cs.drop (k + 1)), L' + 1, ?_, le_refl _, fun _ => rfl, fun _ => ⟨by omega, rfl, _, _, rfl⟩,
        WF.relaxed (by simp) (by simp; omega) ?_, ?_, ?_, ?_⟩
      · simp only [Option.bind_some, List.map_cons, psums, Nat.zero_add, hn0]
      · intro y hy
        simp only [List.mem_cons] at hy
        rcases hy with rfl | hy
        · exact a5
        · exact hw y (List.mem_of_mem_drop hy)
      · rw [hdk, ← a6]; simp [els]
      · intro f hs
        rw [← hn] at hs
        rw [Str.rel, SL.cons]
        exact ⟨a7 _ (by rw [hqn]; exact (hsk f hs).1), (hsk f hs).2⟩
      · intro hc _
        simp only [Nat.add_sub_cancel]
        cases L' with
        | zero => trivial
        | succ L' =>
          left
          have : ¬ k = cs.length - 1 := by
            intro h0
            apply hcol
            refine ⟨hc, ?_, h0⟩
            have : 0 < c.B * (L' + 1) := Nat.mul_pos hB (by omega)
            omega
          simp [kids]; omega

end Rrb
