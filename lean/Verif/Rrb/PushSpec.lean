import Verif.Rrb.Strict

/-!
# Specification of `push_tail_visitor` and `make_path`
-/

namespace Rrb

variable {T : Type} {c : Cfg}

theorem mkPath_reg {t : List T} (ht : t.length = 2 ^ c.BL) :
    ∀ L, Reg c L (mkPath L (.leaf t)) ∧ els L (mkPath L (.leaf t)) = t
  | 0 => ⟨ht, rfl⟩
  | L + 1 => by
    obtain ⟨h1, h2⟩ := mkPath_reg ht L
    constructor
    · refine ⟨by simpa using Nat.one_le_two_pow, [], mkPath L (.leaf t), rfl, by simp, h1⟩
    · simp [mkPath, els, h2]

theorem pow_BL_le_cap (L : Nat) : 2 ^ c.BL ≤ cap c L := Nat.pow_le_pow_right (by omega) (by omega)

/-- multiples of the leaf size below the capacity leave room for a leaf -/
theorem room {n N d : Nat} (h : n < N) (h1 : d ∣ n) (h2 : d ∣ N) : n + d ≤ N := by
  obtain ⟨a, rfl⟩ := h1
  obtain ⟨b, rfl⟩ := h2
  have : a < b := Nat.lt_of_mul_lt_mul_left h
  calc d * a + d = d * (a + 1) := by ring
    _ ≤ d * b := Nat.mul_le_mul_left _ this

theorem Reg.snoc {L : Nat} {cs : List (Node T)} {x : Node T} (hl : cs.length + 1 ≤ 2 ^ c.B)
    (h : ∀ y ∈ cs, Full c L y) (hx : Reg c L x) : Reg c (L + 1) (.inner none (cs ++ [x])) :=
  ⟨by simpa using hl, cs, x, rfl, h, hx⟩

/-- decomposition of a `reg`/`regSub` position -/
theorem RegPos.decomp {L : Nat} {p : Pos T} {l : List T} {n : Node T} {size : Nat} (h : PosOK c (L + 1) p l)
    (hp : RegPos c L p n size) : ∃ ds e, n = .inner none (ds ++ [e]) ∧
        ds.length + 1 ≤ 2 ^ c.B ∧ (∀ d ∈ ds, Full c L d) ∧ Reg c L e ∧ l = (ds ++ [e]).flatMap (els L) ∧
        l.length = ds.length * cap c L + (els L e).length ∧
        ds.length * cap c L + (els L e).length = (size - 1) % cap c (L + 1) + 1 ∧ 1 ≤ size ∧
        p.count c = ds.length + 1 ∧ (els L e).length = (size - 1) % cap c L + 1 := by
  rcases h.regular with ⟨n', size', ⟨ds, e, rfl, hl, hd, he, rfl, hsz⟩, hp', h1⟩ | ⟨cs', rfl, hl, hd, rfl⟩ |
    ⟨cs', hne, hl, hw, rfl, rfl⟩
  · obtain ⟨hn, hs⟩ : n = .inner none (ds ++ [e]) ∧ size' = size := by
      rcases hp with rfl | ⟨rfl, -⟩ <;> rcases hp' with h | ⟨h, -⟩ <;> simp at h <;>
        exact ⟨h.1, h.2.symm⟩
    subst hn hs
    obtain ⟨hc, hm⟩ := hp.count hl hd he h1 hsz
    refine ⟨ds, e, rfl, hl, hd, he, rfl, ?_, hsz, h1, hc, hm⟩
    simp only [List.flatMap_append, List.flatMap_cons, List.flatMap_nil, List.append_nil,
      List.length_append]
    rw [els_len_const (fun x hx => (hd x hx).len)]
  · rcases hp with h | ⟨h, -⟩ <;> simp at h
  · rcases hp with h | ⟨h, -⟩ <;> simp at h

theorem RegPos.index {L : Nat} {p : Pos T} {n : Node T} {size : Nat} (hp : RegPos c L p n size) (i : Nat) :
    p.index c i = some (i % cap c (L + 1) / cap c L) := by
  rw [cap_succ, Nat.mod_mul_right_div_self]
  rcases hp with rfl | ⟨rfl, -⟩ <;> simp only [Pos.index, shr_and, pow_shift]

theorem RegPos.size {L : Nat} {p : Pos T} {n : Node T} {size : Nat} (hp : RegPos c L p n size) :
    p.size c = some size := by rcases hp with rfl | ⟨rfl, -⟩ <;> rfl

theorem RegPos.node {L : Nat} {p : Pos T} {n : Node T} {size : Nat} (hp : RegPos c L p n size) :
    p.node = n := by rcases hp with rfl | ⟨rfl, -⟩ <;> rfl

theorem RegPos.lastOh {L : Nat} {p : Pos T} {r cs} {size k : Nat} {x : Node T} 
    (hp : RegPos c L p (.inner r cs) size) (hx : cs[k]? = some x) :
    p.lastOh c k = some (Pos.kidReg c (c.BL + c.B * L) size x) := by
  rcases hp with rfl | ⟨rfl, -⟩ <;> simp [Pos.lastOh, Node.inner?, hx]

theorem pushTail_reg_eq {L : Nat} {p : Pos T} {n : Node T} {size : Nat} (hp : RegPos c L p n size)
    (tail : Node T) (ts : Nat) :
    pushTail c tail ts (L + 1) p = (do
      let size ← p.size c
      let idx ← p.index c (size - 1)
      let ni ← p.index c (size + 2 ^ c.BL - 1)
      let child ← if idx = ni then do
          let q ← p.lastOh c idx
          (← pushTail c tail ts L q)
        else some (mkPath L tail)
      let cs ← p.node.inner?
      let ks ← slice cs 0 ni
      (mkInner c (ks ++ [child])).map some) := by
  rcases hp with rfl | ⟨rfl, -⟩ <;> rfl

/-- arithmetic of the two index computations of `push_tail_visitor::visit_regular` -/
theorem push_index {D N e size C u : Nat} (hm : D * N + e = (size - 1) % C + 1) (h1 : 1 ≤ size) (he : 1 ≤ e)
    (heN : e ≤ N) (hu : 1 ≤ u) (hue : u ∣ e) (huN : u ∣ N) (hC : D * N + e + u ≤ C) :
    (size - 1) % C / N = D ∧ (size + u - 1) % C / N = if e = N then D + 1 else D := by
  have e1 : (size - 1) % C = D * N + e - 1 := by omega
  have e2 : (size + u - 1) % C = D * N + e - 1 + u := by
    have : size + u - 1 = (size - 1) + u := by omega
    rw [this, Nat.add_mod, e1]
    rw [Nat.mod_eq_of_lt (by omega : u < C), Nat.mod_eq_of_lt (by omega)]
  refine ⟨by rw [e1, reg_count he heN], ?_⟩
  rw [e2]
  have huN' : u ≤ N := Nat.le_of_dvd (by omega) huN
  split
  · rename_i h
    subst h
    have : D * e + e - 1 + u = (D + 1) * e + u - 1 := by rw [Nat.add_mul]; omega
    rw [this, reg_count hu huN']
  · have := room (by omega : e < N) hue huN
    have h2 : D * N + e - 1 + u = D * N + (e + u) - 1 := by omega
    rw [h2, reg_count (by omega) this]

/-- pushing a full leaf into a regular tree that is not full -/
theorem pushTail_regular (hB : 0 < c.B) {t : List T} (ht : t.length = 2 ^ c.BL) (ts : Nat) :
    ∀ (L : Nat) {p : Pos T} {l : List T} {n : Node T} {size : Nat}, PosOK c (L + 1) p l →
      RegPos c L p n size → l.length < cap c (L + 1) →
      ∃ m, pushTail c (.leaf t) ts (L + 1) p = some (some m) ∧ Reg c (L + 1) m ∧ els (L + 1) m = l ++ t := by
  intro L
  induction L with
  | zero =>
    intro p l n size h hp hlt
    obtain ⟨ds, e, rfl, hl, hd, he, rfl, hlen, hsz, h1, hc, hm⟩ := hp.decomp h
    obtain ⟨e1, e2, e3⟩ := he.len
    have hel : (els 0 e).length = cap c 0 := by
      match e, he with
      | .leaf xs, he => simpa [els, cap_zero, Reg] using he
      | .inner _ _, he => simp [Reg] at he
    have hC := room hlt (by rw [hlen]; exact Nat.dvd_add (Dvd.dvd.mul_left (dvd_cap c 0) _) e3) (dvd_cap c 1)
    obtain ⟨i1, i2⟩ := push_index hsz h1 e1 e2 (Nat.two_pow_pos c.BL) e3 (dvd_cap c 0) (by omega)
    rw [if_pos hel] at i2
    have hds : ds.length + 2 ≤ 2 ^ c.B := by
      rw [hlen, hel, cap_succ, cap_zero] at hC
      have : (2 ^ c.BL) * (ds.length + 2) ≤ 2 ^ c.BL * 2 ^ c.B := by
        calc _ = ds.length * 2 ^ c.BL + 2 ^ c.BL + 2 ^ c.BL := by ring
          _ ≤ _ := hC
      exact Nat.le_of_mul_le_mul_left this (Nat.two_pow_pos _)
    refine ⟨.inner none (ds ++ [e] ++ [.leaf t]), ?_, Reg.snoc (by simpa using hds) ?_ (show Reg c 0 (.leaf t) from ht), by simp [els]⟩
    · rw [pushTail_reg_eq hp, hp.size, hp.node]
      simp only [Option.bind_eq_bind, Option.bind_some, hp.index, i1, i2]
      rw [if_neg (by omega)]
      simp only [Option.bind_some, Node.inner?]
      rw [slice_all (by simp)]
      simp only [Option.bind_some, mkInner]
      rw [if_pos (by simpa using hds)]; rfl
    · intro y hy
      simp only [List.mem_append, List.mem_singleton] at hy
      rcases hy with hy | rfl
      · exact hd y hy
      · exact he.full_of_len hel
  | succ L ih =>
    intro p l n size h hp hlt
    obtain ⟨ds, e, rfl, hl, hd, he, rfl, hlen, hsz, h1, hc, hm⟩ := hp.decomp h
    obtain ⟨e1, e2, e3⟩ := he.len
    have hC := room hlt (by rw [hlen]; exact Nat.dvd_add (Dvd.dvd.mul_left (dvd_cap c _) _) e3) (dvd_cap c _)
    obtain ⟨i1, i2⟩ := push_index hsz h1 e1 e2 (Nat.two_pow_pos c.BL) e3 (dvd_cap c _) (by omega)
    by_cases hel : (els (L + 1) e).length = cap c (L + 1)
    · rw [if_pos hel] at i2
      obtain ⟨m1, m2⟩ := mkPath_reg (c := c) ht (L + 1)
      have hds : ds.length + 2 ≤ 2 ^ c.B := by
        by_contra hcon
        have : ds.length + 1 = 2 ^ c.B := by omega
        rw [hlen, hel, cap_succ c (L + 1), ← this] at hlt
        have : cap c (L + 1) * (ds.length + 1) = ds.length * cap c (L + 1) + cap c (L + 1) := by ring
        omega
      refine ⟨.inner none (ds ++ [e] ++ [mkPath (L + 1) (.leaf t)]), ?_, Reg.snoc (by simpa using hds) ?_ m1, ?_⟩
      · rw [pushTail_reg_eq hp, hp.size, hp.node]
        simp only [Option.bind_eq_bind, Option.bind_some, hp.index, i1, i2]
        rw [if_neg (by omega)]
        simp only [Option.bind_some, Node.inner?]
        rw [slice_all (by simp)]
        simp only [Option.bind_some, mkInner]
        rw [if_pos (by simpa using hds)]; rfl
      · intro y hy
        simp only [List.mem_append, List.mem_singleton] at hy
        rcases hy with hy | rfl
        · exact hd y hy
        · exact he.full_of_len hel
      · rw [els, List.flatMap_append]; simp [m2]
    · rw [if_neg hel] at i2
      have hx : (ds ++ [e])[ds.length]? = some e := by simp
      obtain ⟨m, hm1, hm2, hm3⟩ := ih (p := Pos.kidReg c (c.BL + c.B * (L + 1)) size e) (n := e) (size := size)
        (kidReg_ok hB he h1 hm) (by
          left
          have : ¬ (c.BL + c.B * (L + 1) = c.BL) := by rw [shiftL hB]; omega
          simp only [Pos.kidReg, if_neg this, shift_sub]) (by omega)
      refine ⟨.inner none (ds ++ [m]), ?_, Reg.snoc hl hd hm2, by simp [els, hm3] ⟩
      rw [pushTail_reg_eq hp, hp.size, hp.node]
      simp only [Option.bind_eq_bind, Option.bind_some, hp.index, i1, i2]
      rw [if_pos trivial, hp.lastOh hx]
      simp only [Option.bind_some, hm1, Node.inner?]
      rw [slice_snoc ds e 0 (by omega)]
      simp only [List.drop_zero, Option.bind_some, mkInner]
      rw [if_pos (by simpa using hl)]; rfl

/-- a relaxed node made from its children and exact sizes -/
theorem WF.relaxed {L : Nat} {cs : List (Node T)} (hne : cs ≠ []) (hl : cs.length ≤ 2 ^ c.B)
    (hw : ∀ x ∈ cs, WF c L x) :
    WF c (L + 1) (.inner (some (psums 0 (cs.map (fun x => (els L x).length)))) cs) := ⟨hne, hl, hw, rfl⟩

theorem psums_snoc (xs : List Nat) (x : Nat) : psums 0 (xs ++ [x]) = psums 0 xs ++ [xs.sum + x] := by
  rw [psums_append]; simp [psums]

theorem sum_els (L : Nat) (cs : List (Node T)) :
    (cs.map (fun x => (els L x).length)).sum = (cs.flatMap (els L)).length := by
  simp [List.length_flatMap]

/-- replacing everything from child `k` on by one child keeps the table exact -/
theorem pushTailFinish_ok {L k tot : Nat} {cs : List (Node T)} {r : Option (List Nat)} {x : Node T}
    (hk : k ≤ cs.length) (hlt : k < 2 ^ c.B) (hw : ∀ y ∈ cs, WF c L y) (hx : WF c L x)
    (ht : tot = before L cs k + (els L x).length) :
    ∃ m, pushTailFinish c (.inner r cs) (psums 0 (cs.map (fun x => (els L x).length))) k tot x = some m ∧
      WF c (L + 1) m ∧ els (L + 1) m = (cs.take k).flatMap (els L) ++ els L x ∧ m = relOf L (cs.take k ++ [x]) := by
  have e1 : (psums 0 (cs.map (fun x => (els L x).length))).take k ++ [tot] =
      psums 0 ((cs.take k ++ [x]).map (fun x => (els L x).length)) := by
    rw [List.map_append, List.map_singleton, psums_snoc, psums_take, List.map_take, ht, before_eq_sum]
  refine ⟨.inner (some (psums 0 ((cs.take k ++ [x]).map (fun x => (els L x).length)))) (cs.take k ++ [x]), ?_,
    WF.relaxed (by simp) (by simp; omega) ?_, by simp [els], rfl⟩
  · simp only [pushTailFinish, Node.inner?, Option.bind_eq_bind, Option.bind_some]
    rw [slice_zero hk, slice_zero (by simpa [psums_length] using hk)]
    simp only [Option.bind_some, mkInnerR, e1]
    rw [if_pos (by simp; omega)]
  · intro y hy
    simp only [List.mem_append, List.mem_singleton] at hy
    rcases hy with hy | rfl
    · exact hw y (List.mem_of_mem_take hy)
    · exact hx

/-- the size table of a relaxed position -/
theorem sizeAt_rel {L k : Nat} {cs : List (Node T)} {n : Node T} {s : Nat} {x : Node T} (hx : cs[k]? = some x) :
    (Pos.rel n s (psums 0 (cs.map (fun x => (els L x).length)))).sizeAt k = some (els L x).length := by
  obtain ⟨hk, rfl⟩ := List.getElem?_eq_some_iff.1 hx
  have hk' : k < (cs.map (fun x => (els L x).length)).length := by simpa using hk
  simp only [Pos.sizeAt, szBefore_psums _ _ (Nat.le_of_lt hk'), psums_get _ _ _ hk', Option.bind_eq_bind,
    Option.bind_some, take_sum_succ _ _ hk', List.getElem_map]
  congr 1; omega

theorem size_rel {L : Nat} {cs : List (Node T)} {n : Node T} {s : Nat} (hne : cs ≠ []) :
    (Pos.rel n s (psums 0 (cs.map (fun x => (els L x).length)))).size c = some (cs.flatMap (els L)).length := by
  have h : 0 < cs.length := List.length_pos_iff.2 hne
  simp only [Pos.size, psums_length, List.length_map]
  rw [psums_get _ _ _ (by simp; omega), List.take_of_length_le (by simp; omega), sum_els]; simp

/-- pushing a full leaf into a relaxed tree: either there is no room at all, or the result has the leaf at the end.
`none` also means the tree is as high as it can be used. -/
theorem pushTail_rel (hB : 0 < c.B) {t : List T} (ht : t.length = 2 ^ c.BL) :
    ∀ (L : Nat) {l : List T} {n : Node T} {s : Nat} {sz : List Nat}, PosOK c (L + 1) (.rel n s sz) l →
      ∃ r, pushTail c (.leaf t) t.length (L + 1) (.rel n s sz) = some r ∧
        (∀ m, r = some m → WF c (L + 1) m ∧ els (L + 1) m = l ++ t ∧ (∃ sz ds, m = .inner (some sz) ds) ∧
          (Str c false (L + 1) n → Str c false (L + 1) m) ∧ (LftOK L n → LftOK L m)) ∧
        (r = none → Str c false (L + 1) n → Str c true (L + 1) n) := by
  intro L
  -- adding a new path after the last child
  have path : ∀ (L : Nat) {cs : List (Node T)}, (∀ x ∈ cs, WF c L x) → cs.length < 2 ^ c.B → ∀ r,
      ∃ m, pushTailFinish c (.inner r cs) (psums 0 (cs.map (fun x => (els L x).length))) cs.length
          ((cs.flatMap (els L)).length + t.length) (mkPath L (.leaf t)) = some m ∧ WF c (L + 1) m ∧
        els (L + 1) m = cs.flatMap (els L) ++ t ∧ (∃ sz ds, m = .inner (some sz) ds) ∧
        (SL c true L cs → Str c false (L + 1) m) ∧ (cs ≠ [] → LftOK L m) := by
    intro L cs hw hl r
    obtain ⟨m1, m2⟩ := mkPath_reg (c := c) ht L
    have := pushTailFinish_ok (c := c) (r := r) (tot := (cs.flatMap (els L)).length + t.length)
      (le_refl cs.length) hl hw m1.wf (by rw [m2, before_all _ _ _ (le_refl _)])
    rw [List.take_length, m2] at this
    obtain ⟨m, h1, h2, h3, rfl⟩ := this
    refine ⟨_, h1, h2, h3, ⟨_, _, rfl⟩, fun hs => ?_, fun hne => ?_⟩
    · rw [relOf, Str.rel, SL.append, SL.cons]
      exact ⟨by simpa using hs, by simpa using m1.str, SL.nil⟩
    · cases L with
      | zero => trivial
      | succ L =>
        left
        have := List.length_pos_iff.2 hne
        simp [relOf, kids]; omega
  induction L with
  | zero =>
    intro l n s sz h
    rcases h.regular with ⟨n', size', -, hp', h1⟩ | ⟨cs', h, -⟩ | ⟨cs, hne, hl, hw, rfl, hp⟩
    · rcases hp' with h | ⟨h, -⟩ <;> simp at h
    · simp at h
    · simp only [Pos.rel.injEq] at hp
      obtain ⟨rfl, rfl, rfl⟩ := hp
      have h0 : 0 < cs.length := List.length_pos_iff.2 hne
      have hx : cs[cs.length - 1]? = some cs[cs.length - 1] := List.getElem?_eq_getElem (by omega)
      simp only [pushTail, Pos.count, psums_length, List.length_map, sizeAt_rel hx, size_rel hne,
        Option.bind_eq_bind, Option.bind_some, Nat.mul_zero, Nat.add_zero, or_true, if_true]
      by_cases hfull : 2 ^ c.B ≤ cs.length - 1 + 1
      · rw [if_pos hfull]; exact ⟨none, rfl, by simp, fun _ _ => SL.zero⟩
      · obtain ⟨m, hm, hm1, hm2, hm3, hm4, hm5⟩ := path 0 hw (by omega) (some (psums 0 (cs.map (fun x => (els 0 x).length))))
        rw [if_neg hfull, if_neg (by omega), Nat.sub_add_cancel h0, hm]
        exact ⟨some m, rfl, by rintro _ ⟨⟩; exact ⟨hm1, hm2, hm3, fun _ => hm4 SL.zero, fun _ => hm5 hne⟩, by simp⟩
  | succ L ih =>
    intro l n s sz h
    rcases h.regular with ⟨n', size', -, hp', h1⟩ | ⟨cs', h, -⟩ | ⟨cs, hne, hl, hw, rfl, hp⟩
    · rcases hp' with h | ⟨h, -⟩ <;> simp at h
    · simp at h
    · simp only [Pos.rel.injEq] at hp
      obtain ⟨rfl, rfl, rfl⟩ := hp
      have h0 : 0 < cs.length := List.length_pos_iff.2 hne
      have hx : cs[cs.length - 1]? = some cs[cs.length - 1] := List.getElem?_eq_getElem (by omega)
      have hs : ¬ (c.BL + c.B * (L + 1) = c.BL) := by rw [shiftL hB]; omega
      generalize hlx : cs[cs.length - 1] = x at hx
      have hxw : WF c (L + 1) x := hw x (by rw [← hlx]; exact List.getElem_mem _)
      have hsplit : cs.flatMap (els (L + 1)) = (cs.take (cs.length - 1)).flatMap (els (L + 1)) ++ els (L + 1) x := by
        conv_lhs => rw [← List.take_of_length_le (le_refl cs.length), ← Nat.sub_add_cancel h0,
          List.take_succ_eq_append_getElem (by omega), hlx]
        simp
      simp only [pushTail, Pos.count, psums_length, List.length_map, sizeAt_rel hx, size_rel hne,
        Option.bind_eq_bind, Option.bind_some, hs, or_false, Nat.one_shiftLeft, pow_shift]
      -- if the last child has no incomplete regular node, nor has any other
      have hup : Str c true (L + 1) x → Str c false (L + 2) (.inner (some (psums 0 (cs.map (fun x => (els (L + 1) x).length)))) cs) →
          SL c true (L + 1) cs := by
        intro hx' hs
        rw [Str.rel] at hs
        have e : cs = cs.take (cs.length - 1) ++ [x] := by
          conv_lhs => rw [← List.take_of_length_le (le_refl cs.length), ← Nat.sub_add_cancel h0,
            List.take_succ_eq_append_getElem (by omega), hlx]
        rw [e, SL.append] at hs
        rw [e, SL.append, SL.cons]
        exact ⟨by simpa using hs.1, by simpa using hx', SL.nil⟩
      have hlast : Str c false (L + 2) (.inner (some (psums 0 (cs.map (fun x => (els (L + 1) x).length)))) cs) →
          Str c false (L + 1) x := by
        intro hs
        have := hs (cs.take (cs.length - 1)) x [] (by
          conv_lhs => rw [← List.take_of_length_le (le_refl cs.length), ← Nat.sub_add_cancel h0,
            List.take_succ_eq_append_getElem (by omega), hlx])
        simpa using this
      by_cases hcl : (els (L + 1) x).length = cap c (L + 1)
      · simp only [hcl, if_true]
        by_cases hfull : 2 ^ c.B ≤ cs.length - 1 + 1
        · rw [if_pos hfull]; exact ⟨none, rfl, by simp, fun _ hs => hup (Str.of_len hxw hcl) hs⟩
        · obtain ⟨m, hm, hm1, hm2, hm3, hm4, hm5⟩ := path (L + 1) hw (by omega)
            (some (psums 0 (cs.map (fun x => (els (L + 1) x).length))))
          rw [if_neg hfull, if_neg (by omega), Nat.sub_add_cancel h0, hm]
          refine ⟨some m, rfl, ?_, by simp⟩
          rintro _ ⟨⟩
          exact ⟨hm1, hm2, hm3, fun hs => hm4 (hup (Str.of_len hxw hcl) hs), fun _ => hm5 hne⟩
      · simp only [hcl, if_false]
        rw [if_neg (by omega)]
        obtain ⟨q, hq, hqok, hqn⟩ := kidRel_ok hB hxw rfl
        simp only [Pos.lastOhCsh, Node.inner?, Option.bind_eq_bind, Option.bind_some, hx, hq, if_true]
        have hlt : (els (L + 1) x).length < cap c (L + 1) := by
          have := hxw.len; omega
        -- result of the recursive call
        have hrec : ∃ r, pushTail c (.leaf t) t.length (L + 1) q = some r ∧
            (∀ m, r = some m → WF c (L + 1) m ∧ els (L + 1) m = els (L + 1) x ++ t ∧
              (Str c false (L + 1) x → Str c false (L + 1) m) ∧ (LftOK L x → LftOK L m)) ∧
            (r = none → Str c false (L + 1) x → Str c true (L + 1) x) := by
          rcases hqok.regular with ⟨n', size', -, hp', h1⟩ | ⟨cs', rfl, h2, h3, h4⟩ | ⟨cs, hne, hl, hw, h4, rfl⟩
          · obtain ⟨m, hm1, hm2, hm3⟩ := pushTail_regular hB ht t.length L hqok hp' hlt
            refine ⟨some m, hm1, ?_, by simp⟩
            rintro _ ⟨⟩
            refine ⟨hm2.wf, hm3, fun _ => hm2.str, fun hlx => hm2.lft ?_⟩
            have hxr : Reg c (L + 1) x := by
              rw [← hqn, hp'.node]
              obtain ⟨ds, e, rfl, a1, a2, a3, -⟩ := hp'.decomp hqok
              exact Reg.snoc a1 a2 a3
            cases L with
            | zero => left; rfl
            | succ L =>
              right
              rcases hlx with hlx | ⟨sz, y, rfl, -⟩
              · have := hxr.two.1 hlx; rw [hm3, List.length_append]; omega
              · simp [Reg] at hxr
          · have := Full.len (L := L + 1) (n := .inner none cs') ⟨h2, h3⟩
            rw [h4] at hlt
            simp only [els] at this
            omega
          · obtain ⟨r, hr, hr', hr''⟩ := ih hqok
            simp only [Pos.node] at hqn; subst hqn
            exact ⟨r, hr, fun m hm => ⟨(hr' m hm).1, (hr' m hm).2.1, (hr' m hm).2.2.2⟩, hr''⟩
        obtain ⟨r, hr, hr', hr''⟩ := hrec
        rw [hr]
        simp only [Option.bind_some]
        cases r with
        | some child =>
          obtain ⟨w1, w2, w3, w4⟩ := hr' child rfl
          obtain ⟨m, hm, hm1, hm2, rfl⟩ := pushTailFinish_ok (c := c) (k := cs.length - 1)
            (r := some (psums 0 (cs.map (fun x => (els (L + 1) x).length))))
            (tot := (cs.flatMap (els (L + 1))).length + t.length)
            (by omega : cs.length - 1 ≤ cs.length) (by omega) hw w1 (by
              rw [w2, hsplit]; simp only [List.length_append, before]; omega)
          simp only [hm]
          have hcs : cs = cs.take (cs.length - 1) ++ [x] := by
            conv_lhs => rw [← List.take_of_length_le (le_refl cs.length), ← Nat.sub_add_cancel h0,
              List.take_succ_eq_append_getElem (by omega), hlx]
          refine ⟨some _, rfl, ?_, by simp⟩
          rintro _ ⟨⟩
          refine ⟨hm1, by rw [hm2, w2, hsplit]; simp, ⟨_, _, rfl⟩, fun hs => ?_, fun hlf => ?_⟩
          · rw [Str.rel, hcs, SL.append, SL.cons] at hs
            rw [relOf, Str.rel, SL.append, SL.cons]
            exact ⟨by simpa using hs.1, by simpa using w3 (by simpa using hs.2.1), SL.nil⟩
          · rcases hlf with hlf | ⟨sz, y, he, hlf⟩
            · left; simp only [relOf, kids] at hlf ⊢; simp; omega
            · simp only [Node.inner.injEq] at he
              obtain ⟨-, rfl⟩ := he
              simp at hlx; subst hlx
              exact Or.inr ⟨_, child, rfl, w4 hlf⟩
        | none =>
          simp only
          by_cases hfull : cs.length - 1 + 1 < 2 ^ c.B
          · obtain ⟨m, hm, hm1, hm2, hm3, hm4, hm5⟩ := path (L + 1) hw (by omega)
              (some (psums 0 (cs.map (fun x => (els (L + 1) x).length))))
            rw [if_pos hfull, Nat.sub_add_cancel h0, hm]
            refine ⟨some m, rfl, ?_, by simp⟩
            rintro _ ⟨⟩
            exact ⟨hm1, hm2, hm3, fun hs => hm4 (hup (hr'' rfl (hlast hs)) hs), fun _ => hm5 hne⟩
          · rw [if_neg hfull]
            exact ⟨none, rfl, by simp, fun _ hs => hup (hr'' rfl (hlast hs)) hs⟩

end Rrb
