import Verif.Rrb.PosLemmas

/-!
# Specifications of `each*`, `index`, `towards*` on positions that denote lists
-/

namespace Rrb

variable {T : Type} {c : Cfg}

/-- the child positions `ps` denote the children `cs` -/
def KidsOK (c : Cfg) (L : Nat) (ps : List (Pos T)) (cs : List (Node T)) : Prop :=
  List.Forall₂ (fun p x => PosOK c L p (els L x) ∧ p.node = x) ps cs

theorem kidFull_node (s : Nat) (x : Node T) : (Pos.kidFull c s x).node = x := by
  unfold Pos.kidFull; split <;> rfl

theorem kidReg_node (s z : Nat) (x : Node T) : (Pos.kidReg c s z x).node = x := by
  unfold Pos.kidReg; split <;> rfl

theorem kidRegSub_node (s z : Nat) (x : Node T) : (Pos.kidRegSub c s z x).node = x := by
  unfold Pos.kidRegSub; split <;> rfl

theorem kidsFull (hB : 0 < c.B) {L : Nat} {cs : List (Node T)} (h : ∀ x ∈ cs, Full c L x) :
    KidsOK c L (cs.map (Pos.kidFull c (c.BL + c.B * L))) cs :=
  forall₂_map_id (fun x hx => ⟨kidFull_ok hB (h x hx), kidFull_node _ _⟩)

theorem KidsOK.append {L : Nat} {ps qs : List (Pos T)} {cs ds : List (Node T)} (h : KidsOK c L ps cs)
    (h' : KidsOK c L qs ds) : KidsOK c L (ps ++ qs) (cs ++ ds) := List.rel_append h h'

/-- the part `[i, n)` of `ds ++ [e]` that ends with `e` -/
theorem drop_take_snoc {α : Type} (ds : List α) (e : α) (i n : Nat) (hi : i ≤ ds.length)
    (hn : n = ds.length + 1) : ((ds ++ [e]).drop i).take (n - i) = ds.drop i ++ [e] := by
  rw [List.drop_append_of_le_length hi, List.take_of_length_le (by simp; omega)]

theorem slice_snoc {α : Type} (ds : List α) (e : α) (i : Nat) (hi : i ≤ ds.length) :
    slice (ds ++ [e]) i ds.length = some (ds.drop i) := by
  rw [slice_ok hi (by simp), List.drop_append_of_le_length hi, List.take_append_of_le_length (by simp),
    List.take_of_length_le (by simp)]

theorem slice_init {α : Type} (ds : List α) (e : α) (i n : Nat) (hi : i ≤ n) (hn : n ≤ ds.length) :
    slice (ds ++ [e]) i n = some ((ds.drop i).take (n - i)) := by
  rw [slice_ok hi (by simp; omega), List.drop_append_of_le_length (by omega),
    List.take_append_of_le_length (by simp; omega)]

section
variable {L : Nat} {p : Pos T} {l : List T} {r : Option (List Nat)} {cs : List (Node T)}

theorem PosOK.each (hB : 0 < c.B) (h : PosOK c (L + 1) p l) (hn : p.node = .inner r cs) :
    ∃ ps, p.each c = some ps ∧ KidsOK c L ps cs := by
  rcases h.regular with ⟨n, size, ⟨ds, e, rfl, hl, hd, he, rfl, hsz⟩, hp, h1⟩ | ⟨cs', rfl, hl, hd, rfl⟩ |
    ⟨cs', hne, hl, hw, rfl, rfl⟩
  · obtain ⟨hc, hm⟩ := hp.count hl hd he h1 hsz
    have hcs : cs = ds ++ [e] := by
      rcases hp with rfl | ⟨rfl, -⟩ <;> (simp [Pos.node] at hn; exact hn.2.symm)
    subst hcs
    have key : Pos.eachRegular c (.inner none (ds ++ [e])) (c.BL + c.B * L) size (p.count c) =
        some (ds.map (Pos.kidFull c (c.BL + c.B * L)) ++ [Pos.kidReg c (c.BL + c.B * L) size e]) := by
      simp [Pos.eachRegular, Node.inner?, hc, slice_snoc]
    refine ⟨ds.map (Pos.kidFull c (c.BL + c.B * L)) ++ [Pos.kidReg c (c.BL + c.B * L) size e], ?_, ?_⟩
    · rcases hp with rfl | ⟨rfl, -⟩ <;> exact key
    · exact (kidsFull hB hd).append (.cons ⟨kidReg_ok hB he h1 hm, kidReg_node _ _ _⟩ .nil)
  · simp [Pos.node] at hn
    obtain ⟨-, rfl⟩ := hn
    exact ⟨_, by simp [Pos.each, Node.inner?, slice_all hl.symm], kidsFull hB hd⟩
  · simp [Pos.node] at hn
    obtain ⟨-, rfl⟩ := hn
    obtain ⟨ps, h1, h2⟩ := relKids_ok hB hw 0 cs'.length (by omega) (le_refl _)
    refine ⟨ps, by simp [Pos.each, Node.inner?, psums_length, h1], ?_⟩
    simpa [KidsOK] using h2

theorem PosOK.eachLeft (hB : 0 < c.B) (h : PosOK c (L + 1) p l) (hn : p.node = .inner r cs) (k : Nat)
    (hk : k < cs.length) : ∃ ps, p.eachLeft c k = some ps ∧ KidsOK c L ps (cs.take k) := by
  rcases h.regular with ⟨n, size, ⟨ds, e, rfl, hl, hd, he, rfl, hsz⟩, hp, h1⟩ | ⟨cs', rfl, hl, hd, rfl⟩ |
    ⟨cs', hne, hl, hw, rfl, rfl⟩
  · obtain ⟨hc, hm⟩ := hp.count hl hd he h1 hsz
    have hcs : cs = ds ++ [e] := by
      rcases hp with rfl | ⟨rfl, -⟩ <;> (simp [Pos.node] at hn; exact hn.2.symm)
    subst hcs
    simp at hk
    refine ⟨(ds.take k).map (Pos.kidFull c (c.BL + c.B * L)), ?_, ?_⟩
    · have hkc : k < p.count c := by omega
      rcases hp with rfl | ⟨rfl, -⟩ <;>
      · simp only [Pos.eachLeft, hkc, if_true, Node.inner?, Option.bind_eq_bind, Option.bind_some]
        rw [slice_init _ _ _ _ (Nat.zero_le _) (by omega)]; simp
    · rw [List.take_append_of_le_length (by omega)]
      exact kidsFull hB (fun x hx => hd x (List.mem_of_mem_take hx))
  · simp [Pos.node] at hn
    obtain ⟨-, rfl⟩ := hn
    exact ⟨_, by simp [Pos.eachLeft, Node.inner?, slice_zero (Nat.le_of_lt hk)],
      kidsFull hB (fun x hx => hd x (List.mem_of_mem_take hx))⟩
  · simp [Pos.node] at hn
    obtain ⟨-, rfl⟩ := hn
    obtain ⟨ps, h1, h2⟩ := relKids_ok hB hw 0 k (by omega) (by omega)
    refine ⟨ps, by simp [Pos.eachLeft, Node.inner?, h1], ?_⟩
    simpa [KidsOK] using h2

theorem PosOK.eachRight (hB : 0 < c.B) (h : PosOK c (L + 1) p l) (hn : p.node = .inner r cs) (k : Nat)
    (h0 : 0 < k) (hk : k ≤ cs.length) : ∃ ps, p.eachRight c k = some ps ∧ KidsOK c L ps (cs.drop k) := by
  rcases h.regular with ⟨n, size, ⟨ds, e, rfl, hl, hd, he, rfl, hsz⟩, hp, h1⟩ | ⟨cs', rfl, hl, hd, rfl⟩ |
    ⟨cs', hne, hl, hw, rfl, rfl⟩
  · obtain ⟨hc, hm⟩ := hp.count hl hd he h1 hsz
    have hcs : cs = ds ++ [e] := by
      rcases hp with rfl | ⟨rfl, -⟩ <;> (simp [Pos.node] at hn; exact hn.2.symm)
    subst hcs
    simp at hk
    rcases Nat.lt_or_ge ds.length k with hkd | hkd
    · refine ⟨[], ?_, ?_⟩
      · have hkc : ¬ (k ≤ p.count c - 1) := by omega
        rcases hp with rfl | ⟨rfl, -⟩ <;> simp [Pos.eachRight, Pos.eachRightRegular, Node.inner?, hkc]
      · rw [List.drop_of_length_le (by simp; omega)]; exact .nil
    · refine ⟨(ds.drop k).map (Pos.kidFull c (c.BL + c.B * L)) ++ [Pos.kidReg c (c.BL + c.B * L) size e],
        ?_, ?_⟩
      · have key : Pos.eachRightRegular c (.inner none (ds ++ [e])) (c.BL + c.B * L) size (p.count c) k =
          some ((ds.drop k).map (Pos.kidFull c (c.BL + c.B * L)) ++
            [Pos.kidReg c (c.BL + c.B * L) size e]) := by
          simp [Pos.eachRightRegular, Node.inner?, hc, slice_snoc _ _ _ hkd, hkd]
        rcases hp with rfl | ⟨rfl, -⟩ <;> exact key
      · rw [List.drop_append_of_le_length hkd]
        exact (kidsFull hB (fun x hx => hd x (List.mem_of_mem_drop hx))).append
          (.cons ⟨kidReg_ok hB he h1 hm, kidReg_node _ _ _⟩ .nil)
  · simp [Pos.node] at hn
    obtain ⟨-, rfl⟩ := hn
    refine ⟨(cs'.drop k).map (Pos.kidFull c (c.BL + c.B * L)), ?_,
      kidsFull hB (fun x hx => hd x (List.mem_of_mem_drop hx))⟩
    simp only [Pos.eachRight, Node.inner?, Option.bind_eq_bind, Option.bind_some]
    rw [slice_ok (by omega) (by omega), List.take_of_length_le (by simp [hl])]
    simp
  · simp [Pos.node] at hn
    obtain ⟨-, rfl⟩ := hn
    obtain ⟨ps, h1, h2⟩ := relKids_ok hB hw k cs'.length (by omega) (le_refl _)
    refine ⟨ps, by simp [Pos.eachRight, Node.inner?, psums_length, h1, h0, hk], ?_⟩
    rwa [List.take_of_length_le (by simp)] at h2

theorem PosOK.eachI (hB : 0 < c.B) (h : PosOK c (L + 1) p l) (hn : p.node = .inner r cs) (i k : Nat)
    (hi : i ≤ k) (hk : k ≤ cs.length) :
    ∃ ps, p.eachI c i k = some ps ∧ KidsOK c L ps ((cs.drop i).take (k - i)) := by
  rcases h.regular with ⟨n, size, ⟨ds, e, rfl, hl, hd, he, rfl, hsz⟩, hp, h1⟩ | ⟨cs', rfl, hl, hd, rfl⟩ |
    ⟨cs', hne, hl, hw, rfl, rfl⟩
  · obtain ⟨hc, hm⟩ := hp.count hl hd he h1 hsz
    have hcs : cs = ds ++ [e] := by
      rcases hp with rfl | ⟨rfl, -⟩ <;> (simp [Pos.node] at hn; exact hn.2.symm)
    subst hcs
    simp at hk
    have key : ∃ ps, Pos.eachIRegular c (.inner none (ds ++ [e])) (c.BL + c.B * L) size (p.count c) i k = some ps
        ∧ KidsOK c L ps (((ds ++ [e]).drop i).take (k - i)) := by
      simp only [Pos.eachIRegular, Node.inner?, hc, Option.bind_eq_bind, Option.bind_some]
      rcases Nat.lt_or_ge i k with hik | hik
      · rw [if_pos hik]
        rcases Nat.lt_or_ge k (ds.length + 1) with hkd | hkd
        · rw [if_pos hkd, slice_init _ _ _ _ hi (by omega), List.drop_append_of_le_length (by omega),
            List.take_append_of_le_length (by simp; omega)]
          exact ⟨_, rfl, kidsFull hB (fun x hx => hd x (List.mem_of_mem_drop (List.mem_of_mem_take hx)))⟩
        · have : k = ds.length + 1 := by omega
          subst this
          rw [if_neg (by omega)]
          simp only [Nat.add_sub_cancel]
          rw [slice_snoc _ _ _ (by omega), drop_take_snoc _ _ _ _ (by omega) rfl]
          refine ⟨(ds.drop i).map (Pos.kidFull c (c.BL + c.B * L)) ++
            [Pos.kidReg c (c.BL + c.B * L) size e], by simp, ?_⟩
          exact (kidsFull hB (fun x hx => hd x (List.mem_of_mem_drop hx))).append
            (.cons ⟨kidReg_ok hB he h1 hm, kidReg_node _ _ _⟩ .nil)
      · rw [if_neg (by omega)]
        have : k - i = 0 := by omega
        rw [this]
        exact ⟨[], rfl, by rw [List.take_zero]; exact .nil⟩
    obtain ⟨ps, k1, k2⟩ := key
    refine ⟨ps, ?_, k2⟩
    rcases hp with rfl | ⟨rfl, -⟩ <;> exact k1
  · simp [Pos.node] at hn
    obtain ⟨-, rfl⟩ := hn
    refine ⟨((cs'.drop i).take (k - i)).map (Pos.kidFull c (c.BL + c.B * L)), ?_,
      kidsFull hB (fun x hx => hd x (List.mem_of_mem_drop (List.mem_of_mem_take hx)))⟩
    simp only [Pos.eachI, Node.inner?, Option.bind_eq_bind, Option.bind_some]
    rw [slice_ok (by omega) (by omega)]; simp
  · simp [Pos.node] at hn
    obtain ⟨-, rfl⟩ := hn
    obtain ⟨ps, h1, h2⟩ := relKids_ok hB hw i k hi hk
    exact ⟨ps, by simp [Pos.eachI, Node.inner?, h1], h2⟩

/-! ### Searching -/

theorem scan_ok (xs : List Nat) (idx t : Nat) (ht : t < xs.length) (hlo : (xs.take t).sum ≤ idx)
    (hhi : idx < (xs.take (t + 1)).sum) (off : Nat) (h : off ≤ t) :
    Pos.scan idx ((psums 0 xs).drop off) off = some t := by
  generalize hd : t - off = d
  induction d generalizing off with
  | zero =>
    have : off = t := by omega
    subst this
    have hl : off < (psums 0 xs).length := by rw [psums_length]; exact ht
    rw [List.drop_eq_getElem_cons hl]
    have := psums_get 0 xs off ht
    rw [List.getElem?_eq_getElem hl] at this
    simp only [Pos.scan, Option.some.inj this]
    rw [if_neg (by omega)]
  | succ d ih =>
    have hl : off < (psums 0 xs).length := by rw [psums_length]; omega
    rw [List.drop_eq_getElem_cons hl]
    have := psums_get 0 xs off (by omega)
    rw [List.getElem?_eq_getElem hl] at this
    simp only [Pos.scan, Option.some.inj this]
    have mono : (xs.take (off + 1)).sum ≤ (xs.take t).sum := by
      have h1 : (xs.take t) = (xs.take (off + 1)) ++ ((xs.take t).drop (off + 1)) := by
        conv_lhs => rw [← List.take_append_drop (off + 1) (xs.take t)]
        rw [List.take_take, Nat.min_eq_left (by omega)]
      rw [h1, List.sum_append]; omega
    rw [if_pos (by omega)]
    exact ih (off + 1) (by omega) (by omega)

/-- some child contains element `i` -/
theorem exists_kid (L : Nat) (cs : List (Node T)) (i : Nat) (h : i < (cs.flatMap (els L)).length) :
    ∃ k x, cs[k]? = some x ∧ before L cs k ≤ i ∧ i < before L cs k + (els L x).length := by
  induction cs generalizing i with
  | nil => simp at h
  | cons y ys ih =>
    rcases Nat.lt_or_ge i (els L y).length with h1 | h1
    · exact ⟨0, y, by simp, by simp [before], by simp [before]; omega⟩
    · simp only [List.flatMap_cons, List.length_append] at h
      obtain ⟨k, x, e1, e2, e3⟩ := ih (i - (els L y).length) (by omega)
      refine ⟨k + 1, x, by simpa using e1, ?_, ?_⟩
      · simp only [before, List.take_succ_cons, List.flatMap_cons, List.length_append] at *; omega
      · simp only [before, List.take_succ_cons, List.flatMap_cons, List.length_append] at *; omega

/-- element `i` of the whole is element `i - before` of child `k` -/
theorem kid_getElem (L : Nat) (cs : List (Node T)) (k : Nat) (x : Node T) (hx : cs[k]? = some x) (i : Nat)
    (h1 : before L cs k ≤ i) (h2 : i < before L cs k + (els L x).length) :
    (cs.flatMap (els L))[i]? = (els L x)[i - before L cs k]? := by
  obtain ⟨hk, rfl⟩ := List.getElem?_eq_some_iff.1 hx
  have : cs = cs.take k ++ (cs[k] :: cs.drop (k + 1)) := by simp
  conv_lhs => rw [this]
  rw [List.flatMap_append, List.getElem?_append_right h1, List.flatMap_cons,
    List.getElem?_append_left (by simp only [before] at *; omega)]
  rfl

theorem PosOK.len_le (h : PosOK c (L + 1) p l) : l.length ≤ cap c (L + 1) := by
  match p, h with
  | .reg n s size, h => obtain ⟨rfl, hr, rfl, h1, h2⟩ := h; exact hr.len.2.1
  | .regSub n s size, h => obtain ⟨rfl, hr, rfl, h2⟩ := h; exact hr.len.2.1
  | .full n s, h => obtain ⟨rfl, hr, rfl⟩ := h; rw [hr.len]
  | .rel n s sz, h => obtain ⟨rfl, hr, rfl, cs, rfl⟩ := h; exact hr.len.2
  | .leaf _ _, h => simp [PosOK] at h
  | .leafSub _ _, h => simp [PosOK] at h
  | .fullLeaf _, h => simp [PosOK] at h

theorem reg_index {idx i k L : Nat} (hi : idx % cap c (L + 1) = i % cap c (L + 1)) (hlt : i < cap c (L + 1))
    (h1 : k * cap c L ≤ i) (h2 : i < k * cap c L + cap c L) :
    (idx >>> (c.BL + c.B * L)) &&& (2 ^ c.B - 1) = k ∧ idx % cap c L = (i - k * cap c L) % cap c L := by
  rw [Nat.mod_eq_of_lt hlt] at hi
  have hc := cap_pos c L
  constructor
  · rw [shr_and, pow_shift, ← Nat.mod_mul_right_div_self, ← cap_succ, hi]
    exact (Nat.div_eq_iff hc).2 ⟨h1, by omega⟩
  · rw [← Nat.mod_mul_right_mod idx (cap c L) (2 ^ c.B), ← cap_succ, hi]
    obtain ⟨j, rfl⟩ := Nat.exists_eq_add_of_le h1
    rw [Nat.add_sub_cancel_left, mul_comm k, Nat.mul_add_mod]

theorem idxOK_notrel {q : Pos T} {L a b : Nat} (h : a % cap c L = b % cap c L)
    (hq : ∀ n s sz, q ≠ .rel n s sz) : IdxOK c L q a b := by
  cases q <;> first | exact h | exact absurd rfl (hq _ _ _)

theorem kidFull_notrel (s : Nat) (x : Node T) (n s' sz) : Pos.kidFull c s x ≠ .rel n s' sz := by
  unfold Pos.kidFull; split <;> simp

theorem kidReg_notrel (s z : Nat) (x : Node T) (n s' sz) : Pos.kidReg c s z x ≠ .rel n s' sz := by
  unfold Pos.kidReg; split <;> simp

/-- `index` finds the child that contains element `i`, and `towards_oh` goes there with the right index -/
theorem PosOK.towards (hB : 0 < c.B) (h : PosOK c (L + 1) p l) (hn : p.node = .inner r cs) {idx i : Nat}
    (hidx : IdxOK c (L + 1) p idx i) {k : Nat} {x : Node T} (hx : cs[k]? = some x)
    (hlo : before L cs k ≤ i) (hhi : i < before L cs k + (els L x).length) :
    p.index c idx = some k ∧ ∃ q idx', p.towardsOh c idx k = some (q, idx') ∧ PosOK c L q (els L x) ∧
      q.node = x ∧ IdxOK c L q idx' (i - before L cs k) := by
  have hlen := h.len_le
  rcases h.regular with ⟨n, size, ⟨ds, e, rfl, hl, hd, he, rfl, hsz⟩, hp, h1⟩ | ⟨cs', rfl, hl, hd, rfl⟩ |
    ⟨cs', hne, hl, hw, rfl, rfl⟩
  · obtain ⟨hc, hm⟩ := hp.count hl hd he h1 hsz
    have hcs : cs = ds ++ [e] := by
      rcases hp with rfl | ⟨rfl, -⟩ <;> (simp [Pos.node] at hn; exact hn.2.symm)
    subst hcs
    obtain ⟨hk, hxe⟩ := List.getElem?_eq_some_iff.1 hx
    have hk' : k ≤ ds.length := by simp at hk; omega
    rw [before_full L ds e hd k hk'] at hlo hhi ⊢
    have hxl : (els L x).length ≤ cap c L := by
      have : x ∈ ds ++ [e] := List.mem_of_getElem? hx
      simp only [List.mem_append, List.mem_singleton] at this
      rcases this with h | rfl
      · rw [(hd x h).len]
      · exact he.len.2.1
    have hi' : i < cap c (L + 1) := by
      rw [cap_succ, mul_comm]
      have h1 : (k + 1) * cap c L ≤ 2 ^ c.B * cap c L := Nat.mul_le_mul_right _ (by omega)
      have h2 : (k + 1) * cap c L = k * cap c L + cap c L := by ring
      omega
    have hidx' : idx % cap c (L + 1) = i % cap c (L + 1) := by
      rcases hp with rfl | ⟨rfl, -⟩ <;> exact hidx
    obtain ⟨ki, km⟩ := reg_index hidx' hi' hlo (by omega)
    refine ⟨?_, ?_⟩
    · rcases hp with rfl | ⟨rfl, -⟩ <;> simp [Pos.index, ki]
    · have hne : (if k + 1 ≠ p.count c then Pos.kidFull c (c.BL + c.B * L) x
          else Pos.kidReg c (c.BL + c.B * L) size x) = (if k < ds.length then Pos.kidFull c (c.BL + c.B * L) x
          else Pos.kidReg c (c.BL + c.B * L) size x) := by
        rw [hc]
        by_cases hkd : k < ds.length
        · rw [if_pos hkd, if_pos (by omega)]
        · rw [if_neg hkd, if_neg (by omega)]
      refine ⟨if k < ds.length then Pos.kidFull c (c.BL + c.B * L) x
          else Pos.kidReg c (c.BL + c.B * L) size x, idx, ?_, ?_, ?_, ?_⟩
      · rw [← hne]
        rcases hp with rfl | ⟨rfl, -⟩ <;> simp [Pos.towardsOh, Pos.towardsRegular, Node.inner?, hx]
      · by_cases hkd : k < ds.length
        · rw [if_pos hkd]
          rw [List.getElem?_append_left hkd] at hx
          exact kidFull_ok hB (hd x (List.mem_of_getElem? hx))
        · rw [if_neg hkd]
          have : k = ds.length := by omega
          subst this
          simp at hxe; subst hxe
          exact kidReg_ok hB he h1 hm
      · split
        · exact kidFull_node _ _
        · exact kidReg_node _ _ _
      · refine idxOK_notrel km ?_
        split
        · exact kidFull_notrel _ _
        · exact kidReg_notrel _ _ _
  · simp [Pos.node] at hn
    obtain ⟨-, rfl⟩ := hn
    obtain ⟨hk, -⟩ := List.getElem?_eq_some_iff.1 hx
    have hfx := hd x (List.mem_of_getElem? hx)
    have hb : before L cs' k = k * cap c L := by
      simp only [before]
      rw [els_len_const (k := cap c L) (fun y hy => (hd y (List.mem_of_mem_take hy)).len)]
      simp [Nat.le_of_lt hk]
    rw [hb] at hlo hhi ⊢
    rw [hfx.len] at hhi
    have hi' : i < cap c (L + 1) := by
      rw [cap_succ, mul_comm]
      have h1 : (k + 1) * cap c L ≤ 2 ^ c.B * cap c L := Nat.mul_le_mul_right _ (by omega)
      have h2 : (k + 1) * cap c L = k * cap c L + cap c L := by ring
      omega
    obtain ⟨ki, km⟩ := reg_index hidx hi' hlo (by omega)
    refine ⟨by simp [Pos.index, ki], _, idx, by simp [Pos.towardsOh, Node.inner?, hx],
      kidFull_ok hB hfx, kidFull_node _ _, ?_⟩
    exact idxOK_notrel km (kidFull_notrel _ _)
  · simp [Pos.node] at hn
    obtain ⟨-, rfl⟩ := hn
    obtain ⟨hk, -⟩ := List.getElem?_eq_some_iff.1 hx
    simp only [IdxOK] at hidx
    subst hidx
    obtain ⟨q, hq, hok, hqn⟩ := relKid_ok hB hw k x hx
    have hb := before_succ L cs' k x hx
    have hks : idx >>> (c.BL + c.B * L) ≤ k := by
      rw [Nat.shiftRight_eq_div_pow, pow_shift]
      have h1 := before_le_cap (c := c) L cs' (fun x hx => (hw x hx).len.2) (k + 1)
      have h2 : idx < (k + 1) * cap c L := by omega
      have := (Nat.div_lt_iff_lt_mul (cap_pos c L)).2 h2
      omega
    refine ⟨?_, q, idx - before L cs' k, ?_, hok, hqn, ?_⟩
    · simp only [Pos.index]
      refine scan_ok _ _ k (by simpa using hk) ?_ ?_ _ hks
      · rw [← before_eq_sum]; exact hlo
      · rw [← before_eq_sum, hb]; exact hhi
    · have hbs := szBefore_psums (cs'.map (fun x => (els L x).length)) k (by simpa using Nat.le_of_lt hk)
      rw [← before_eq_sum] at hbs
      simp [Pos.towardsOh, Node.inner?, hq, hbs]
    · exact IdxOK.of_eq

/-- leaf positions -/
theorem PosOK.leaf {p : Pos T} {l : List T} (h : PosOK c 0 p l) :
    p.node = .leaf l ∧ p.count c = l.length ∧ 1 ≤ l.length ∧ l.length ≤ 2 ^ c.BL ∧
    ∀ idx i, IdxOK c 0 p idx i → i < l.length → p.index c idx = some i := by
  have hidx : ∀ idx i, idx % cap c 0 = i % cap c 0 → i < l.length → l.length ≤ 2 ^ c.BL →
      idx &&& (2 ^ c.BL - 1) = i := by
    intro idx i h1 h2 h3
    rw [Nat.and_two_pow_sub_one_eq_mod]
    rw [cap_zero, Nat.mod_eq_of_lt (by omega : i < 2 ^ c.BL)] at h1
    exact h1
  have hp := Nat.two_pow_pos c.BL
  match p, h with
  | .leaf n size, h =>
    obtain ⟨rfl, h1, h2⟩ := h
    have hle : l.length ≤ 2 ^ c.BL := by
      have := Nat.mod_lt (size - 1) hp
      omega
    exact ⟨rfl, by simp [Pos.count, Nat.and_two_pow_sub_one_eq_mod, h2], by omega, hle, fun idx i h3 h4 => by
      simp only [Pos.index]; rw [hidx idx i h3 h4 hle]⟩
  | .leafSub n k, h =>
    obtain ⟨rfl, h1, h2, h3⟩ := h
    have hle : l.length ≤ 2 ^ c.BL := by omega
    exact ⟨rfl, by simp [Pos.count, h1], by omega, hle, fun idx i h3 h4 => by
      simp only [Pos.index]; rw [hidx idx i h3 h4 hle]⟩
  | .fullLeaf n, h =>
    obtain ⟨rfl, h1⟩ := h
    exact ⟨rfl, by simp [Pos.count, h1], by omega, by omega, fun idx i h3 h4 => by
      simp only [Pos.index]; rw [hidx idx i h3 h4 (by omega)]⟩
  | .reg _ _ _, h => simp [PosOK] at h
  | .regSub _ _ _, h => simp [PosOK] at h
  | .full _ _, h => simp [PosOK] at h
  | .rel _ _ _, h => simp [PosOK] at h

end
end Rrb
