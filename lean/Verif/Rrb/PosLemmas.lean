import Verif.Rrb.Inv
import Mathlib.Data.List.Forall2

/-!
# The member functions of positions do what they should

For a position that denotes a list, the child positions they return denote the sublists of the children.
-/

namespace Rrb

variable {T : Type} {c : Cfg}

theorem shr_and (idx s b : Nat) : (idx >>> s) &&& (2 ^ b - 1) = idx / 2 ^ s % 2 ^ b := by
  rw [Nat.and_two_pow_sub_one_eq_mod, Nat.shiftRight_eq_div_pow]

theorem shiftL (hB : 0 < c.B) (L : Nat) : (c.BL + c.B * L = c.BL) ↔ L = 0 := by
  constructor
  · intro h
    have : c.B * L = 0 := by omega
    rcases Nat.mul_eq_zero.1 this with h | h <;> omega
  · rintro rfl; simp

theorem shift_sub (L : Nat) : c.BL + c.B * (L + 1) - c.B = c.BL + c.B * L := by
  rw [Nat.mul_add]; omega

theorem pow_shift (L : Nat) : 2 ^ (c.BL + c.B * L) = cap c L := rfl

theorem slice_ok {α : Type} {cs : List α} {i n : Nat} (h1 : i ≤ n) (h2 : n ≤ cs.length) :
    slice cs i n = some ((cs.drop i).take (n - i)) := by simp [slice, h1, h2]

theorem slice_zero {α : Type} {cs : List α} {n : Nat} (h2 : n ≤ cs.length) :
    slice cs 0 n = some (cs.take n) := by simp [slice, h2]

theorem slice_all {α : Type} {cs : List α} {n : Nat} (h2 : n = cs.length) :
    slice cs 0 n = some cs := by simp [slice, h2]

theorem mapM_some {α β : Type} (f : α → Option β) (l : List α) (R : α → β → Prop)
    (h : ∀ x ∈ l, ∃ y, f x = some y ∧ R x y) : ∃ ys, l.mapM f = some ys ∧ List.Forall₂ R l ys := by
  induction l with
  | nil => exact ⟨[], rfl, .nil⟩
  | cons x xs ih =>
    obtain ⟨y, hy, hr⟩ := h x (by simp)
    obtain ⟨ys, hys, hrs⟩ := ih (fun z hz => h z (by simp [hz]))
    exact ⟨y :: ys, by simp [List.mapM_cons, hy, hys], .cons hr hrs⟩

/-! ### Child positions -/

theorem kidFull_ok (hB : 0 < c.B) {L : Nat} {x : Node T} (h : Full c L x) :
    PosOK c L (Pos.kidFull c (c.BL + c.B * L) x) (els L x) := by
  cases L with
  | zero =>
    match x, h with
    | .leaf xs, h => simpa [Pos.kidFull, PosOK, els, Full] using h
    | .inner _ _, h => simp [Full] at h
  | succ L =>
    have : ¬ (c.BL + c.B * (L + 1) = c.BL) := by rw [shiftL hB]; omega
    simp only [Pos.kidFull, if_neg this, PosOK, shift_sub]
    exact ⟨trivial, h, trivial⟩

theorem kidReg_ok (hB : 0 < c.B) {L size : Nat} {x : Node T} (h : Reg c L x) (h1 : 1 ≤ size)
    (h2 : (els L x).length = (size - 1) % cap c L + 1) :
    PosOK c L (Pos.kidReg c (c.BL + c.B * L) size x) (els L x) := by
  cases L with
  | zero =>
    match x, h with
    | .leaf xs, h => 
      simp only [els, cap_zero] at h2
      simp [Pos.kidReg, PosOK, els, h2, h1]
    | .inner _ _, h => simp [Reg] at h
  | succ L =>
    have : ¬ (c.BL + c.B * (L + 1) = c.BL) := by rw [shiftL hB]; omega
    simp only [Pos.kidReg, if_neg this, PosOK, shift_sub]
    exact ⟨trivial, h, trivial, h1, h2⟩

theorem kidRegSub_ok (hB : 0 < c.B) {L size : Nat} {x : Node T} (h : Reg c L x)
    (h2 : size = (els L x).length) :
    PosOK c L (Pos.kidRegSub c (c.BL + c.B * L) size x) (els L x) := by
  have hl := h.len
  subst h2
  cases L with
  | zero =>
    match x, h with
    | .leaf xs, h => 
      simp only [els, cap_zero] at hl
      simp only [Pos.kidRegSub, els, Nat.mul_zero, Nat.add_zero, if_true, PosOK]
      exact ⟨trivial, trivial, hl.1, hl.2.1⟩
    | .inner _ _, h => simp [Reg] at h
  | succ L =>
    have : ¬ (c.BL + c.B * (L + 1) = c.BL) := by rw [shiftL hB]; omega
    simp only [Pos.kidRegSub, if_neg this, PosOK, shift_sub]
    exact ⟨trivial, h, trivial, trivial⟩

theorem maybeRelaxedSub_ok {L size : Nat} {x : Node T} (h : WF c (L + 1) x)
    (h2 : size = (els (L + 1) x).length) :
    ∃ q, Pos.maybeRelaxedSub x (c.BL + c.B * L) size = some q ∧ PosOK c (L + 1) q (els (L + 1) x) ∧
      q.node = x := by
  subst h2
  match x, h with
  | .inner none cs, h =>
    exact ⟨_, rfl, ⟨rfl, h, rfl, rfl⟩, rfl⟩
  | .inner (some sz) cs, h =>
    exact ⟨_, rfl, ⟨rfl, h, rfl, _, rfl⟩, rfl⟩
  | .leaf _, h => simp [WF] at h

theorem kidRel_ok (hB : 0 < c.B) {L size : Nat} {x : Node T} (h : WF c L x)
    (h2 : size = (els L x).length) :
    ∃ q, Pos.kidRel c (c.BL + c.B * L) size x = some q ∧ PosOK c L q (els L x) ∧ q.node = x := by
  cases L with
  | zero =>
    match x, h with
    | .leaf xs, h =>
      simp only [WF] at h
      subst h2
      exact ⟨.leafSub (.leaf xs) xs.length, by simp [Pos.kidRel, els], ⟨rfl, rfl, h.1, h.2⟩, rfl⟩
    | .inner _ _, h => simp [WF] at h
  | succ L =>
    have : ¬ (c.BL + c.B * (L + 1) = c.BL) := by rw [shiftL hB]; omega
    simp only [Pos.kidRel, if_neg this, shift_sub]
    exact maybeRelaxedSub_ok h h2

/-- elements before child `k` -/
def before (L : Nat) (cs : List (Node T)) (k : Nat) : Nat := ((cs.take k).flatMap (els L)).length

theorem before_eq_sum (L : Nat) (cs : List (Node T)) (k : Nat) :
    before L cs k = ((cs.map (fun x => (els L x).length)).take k).sum := by
  simp [before, List.length_flatMap, List.map_take]

theorem before_succ (L : Nat) (cs : List (Node T)) (k : Nat) (x : Node T) (h : cs[k]? = some x) :
    before L cs (k + 1) = before L cs k + (els L x).length := by
  obtain ⟨hk, rfl⟩ := List.getElem?_eq_some_iff.1 h
  simp only [before]
  rw [List.take_succ_eq_append_getElem hk, List.flatMap_append, List.length_append]; simp

theorem before_all (L : Nat) (cs : List (Node T)) (k : Nat) (h : cs.length ≤ k) :
    before L cs k = (cs.flatMap (els L)).length := by
  simp only [before]; rw [List.take_of_length_le h]

theorem before_zero (L : Nat) (cs : List (Node T)) : before L cs 0 = 0 := by simp [before]

theorem before_mono (L : Nat) (cs : List (Node T)) {i j : Nat} (h : i ≤ j) :
    before L cs i ≤ before L cs j := by
  induction j with
  | zero => have : i = 0 := by omega
            subst this; exact le_refl _
  | succ j ih =>
    rcases Nat.lt_or_ge i (j + 1) with h1 | h1
    · refine (ih (by omega)).trans ?_
      simp only [before]
      rw [List.take_add_one, List.flatMap_append, List.length_append]; omega
    · have : i = j + 1 := by omega
      subst this; exact le_refl _

theorem before_le_cap (L : Nat) (cs : List (Node T)) (h : ∀ x ∈ cs, (els L x).length ≤ cap c L) (k : Nat) :
    before L cs k ≤ k * cap c L := by
  refine (els_len_le (fun x hx => h x (List.mem_of_mem_take hx))).trans ?_
  exact Nat.mul_le_mul_right _ (by simp)

/-- for full children the elements before child `k` are `k` times the capacity -/
theorem before_full (L : Nat) (ds : List (Node T)) (e : Node T) (hd : ∀ d ∈ ds, Full c L d) (k : Nat)
    (hk : k ≤ ds.length) : before L (ds ++ [e]) k = k * cap c L := by
  simp only [before]
  rw [List.take_append_of_le_length hk, els_len_const (k := cap c L)
    (fun x hx => (hd x (List.mem_of_mem_take hx)).len)]
  simp [hk]

theorem relKid_ok (hB : 0 < c.B) {L : Nat} {cs : List (Node T)} (hw : ∀ x ∈ cs, WF c L x) (k : Nat)
    (x : Node T) (hx : cs[k]? = some x) :
    ∃ q, Pos.relKid c (c.BL + c.B * L) (psums 0 (cs.map (fun x => (els L x).length))) cs k = some q ∧
      PosOK c L q (els L x) ∧ q.node = x := by
  obtain ⟨hk, rfl⟩ := List.getElem?_eq_some_iff.1 hx
  have hk' : k < (cs.map (fun x => (els L x).length)).length := by simpa using hk
  obtain ⟨q, hq, hok⟩ := kidRel_ok hB (hw cs[k] (List.getElem_mem hk)) rfl
  refine ⟨q, ?_, hok⟩
  simp only [Pos.relKid, hx, szBefore_psums _ _ (Nat.le_of_lt hk'), psums_get _ _ _ hk', Option.bind_eq_bind,
    Option.bind_some, take_sum_succ _ _ hk', List.getElem_map]
  rw [← hq]; congr 1; omega

theorem range'_map_drop {α : Type} (cs : List α) (i n : Nat) (hi : i ≤ n) (hn : n ≤ cs.length)
    {β : Type} (R : α → β → Prop) (ys : List β)
    (h : List.Forall₂ (fun k y => ∀ x, cs[k]? = some x → R x y) (List.range' i (n - i)) ys) :
    List.Forall₂ R ((cs.drop i).take (n - i)) ys := by
  generalize hd : n - i = d at h ⊢
  induction d generalizing i ys with
  | zero => cases h; simp
  | succ d ih =>
    rw [List.range'_succ] at h
    cases h with
    | cons h1 h2 =>
      rw [List.drop_eq_getElem_cons (by omega), List.take_succ_cons]
      refine .cons (h1 _ (List.getElem?_eq_getElem _)) (ih (i + 1) (by omega) _ (by omega) h2)

theorem relKids_ok (hB : 0 < c.B) {L : Nat} {cs : List (Node T)} (hw : ∀ x ∈ cs, WF c L x) (i n : Nat)
    (hi : i ≤ n) (hn : n ≤ cs.length) :
    ∃ ps, Pos.relKids c (c.BL + c.B * L) (psums 0 (cs.map (fun x => (els L x).length))) cs i n = some ps ∧
      List.Forall₂ (fun p x => PosOK c L p (els L x) ∧ p.node = x) ps ((cs.drop i).take (n - i)) := by
  obtain ⟨ps, h1, h2⟩ := mapM_some
    (Pos.relKid c (c.BL + c.B * L) (psums 0 (cs.map (fun x => (els L x).length))) cs)
    (List.range' i (n - i)) (fun k q => ∀ x, cs[k]? = some x → PosOK c L q (els L x) ∧ q.node = x) (by
      intro k hk
      simp only [List.mem_range'_1] at hk
      have hk' : k < cs.length := by omega
      obtain ⟨q, hq, hok⟩ := relKid_ok hB hw k cs[k] (List.getElem?_eq_getElem hk')
      refine ⟨q, hq, ?_⟩
      intro x hx
      rw [List.getElem?_eq_getElem hk'] at hx
      cases hx; exact hok)
  exact ⟨ps, h1, List.Forall₂.flip (range'_map_drop cs i n hi hn _ ps h2)⟩

theorem forall₂_map_left {α β γ : Type} {R : β → γ → Prop} {f : α → β} {g : α → γ} {l : List α}
    (h : ∀ x ∈ l, R (f x) (g x)) : List.Forall₂ R (l.map f) (l.map g) := by
  induction l with
  | nil => exact .nil
  | cons x xs ih => exact .cons (h x (by simp)) (ih (fun y hy => h y (by simp [hy])))

theorem forall₂_map_id {α β : Type} {R : β → α → Prop} {f : α → β} {l : List α}
    (h : ∀ x ∈ l, R (f x) x) : List.Forall₂ R (l.map f) l := by
  simpa using forall₂_map_left (R := R) (f := f) (g := id) h

/-! ### Regular nodes -/

/-- arithmetic of a regular node: `m` full children and a last one of size `e` -/
theorem reg_count {m e N : Nat} (he : 1 ≤ e) (heN : e ≤ N) : (m * N + e - 1) / N = m := by
  have : m * N + e - 1 = (e - 1) + N * m := by rw [mul_comm N m]; omega
  rw [this, Nat.add_mul_div_left _ _ (by omega), Nat.div_eq_of_lt (by omega)]; simp

theorem reg_mod {m e N : Nat} (he : 1 ≤ e) (heN : e ≤ N) : (m * N + e - 1) % N = e - 1 := by
  have : m * N + e - 1 = (e - 1) + N * m := by rw [mul_comm N m]; omega
  rw [this, Nat.add_mul_mod_self_left, Nat.mod_eq_of_lt (by omega)]

variable (c) in
/-- regular inner positions `reg`, `regSub`: common description.  `size` is the size they carry -/
def RegPos (L : Nat) (p : Pos T) (n : Node T) (size : Nat) : Prop :=
  (p = .reg n (c.BL + c.B * L) size ∨ (p = .regSub n (c.BL + c.B * L) size ∧ size ≤ cap c (L + 1)))

theorem RegPos.count {L : Nat} {p : Pos T} {ds : List (Node T)} {e : Node T} {size : Nat}
    (h : RegPos c L p (.inner none (ds ++ [e])) size)
    (hl : ds.length + 1 ≤ 2 ^ c.B) (hd : ∀ d ∈ ds, Full c L d) (he : Reg c L e) (h1 : 1 ≤ size)
    (hsz : ds.length * cap c L + (els L e).length = (size - 1) % cap c (L + 1) + 1) :
    p.count c = ds.length + 1 ∧ (els L e).length = (size - 1) % cap c L + 1 := by
  obtain ⟨e1, e2, -⟩ := he.len
  have hc := cap_pos c L
  have key : (size - 1) % cap c (L + 1) = ds.length * cap c L + (els L e).length - 1 := by omega
  have hm : (size - 1) % cap c L = (els L e).length - 1 := by
    rw [← Nat.mod_mul_right_mod (size - 1) (cap c L) (2 ^ c.B), ← cap_succ, key]
    exact reg_mod e1 e2
  refine ⟨?_, by omega⟩
  rcases h with rfl | ⟨rfl, hs⟩
  · simp only [Pos.count, shr_and, pow_shift]
    rw [← Nat.mod_mul_right_div_self, ← cap_succ, key, reg_count e1 e2]
  · simp only [Pos.count, Nat.shiftRight_eq_div_pow, pow_shift]
    rw [Nat.mod_eq_of_lt (by omega)] at key
    rw [key, reg_count e1 e2]

/-- what a non-relaxed inner position looks like -/
theorem PosOK.regular {L : Nat} {p : Pos T} {l : List T} (h : PosOK c (L + 1) p l) :
    (∃ n size, (∃ ds e, n = .inner none (ds ++ [e]) ∧ ds.length + 1 ≤ 2 ^ c.B ∧ (∀ d ∈ ds, Full c L d) ∧
        Reg c L e ∧ l = (ds ++ [e]).flatMap (els L) ∧
        ds.length * cap c L + (els L e).length = (size - 1) % cap c (L + 1) + 1) ∧
        RegPos c L p n size ∧ 1 ≤ size) ∨
    (∃ cs, p = .full (.inner none cs) (c.BL + c.B * L) ∧ cs.length = 2 ^ c.B ∧ (∀ x ∈ cs, Full c L x) ∧
        l = cs.flatMap (els L)) ∨
    (∃ cs, cs ≠ [] ∧ cs.length ≤ 2 ^ c.B ∧ (∀ x ∈ cs, WF c L x) ∧ l = cs.flatMap (els L) ∧
      p = .rel (.inner (some (psums 0 (cs.map (fun x => (els L x).length)))) cs) (c.BL + c.B * L)
        (psums 0 (cs.map (fun x => (els L x).length)))) := by
  have key : ∀ n : Node T, Reg c (L + 1) n → ∃ ds e, n = .inner none (ds ++ [e]) ∧
      ds.length + 1 ≤ 2 ^ c.B ∧ (∀ d ∈ ds, Full c L d) ∧
        Reg c L e ∧ els (L + 1) n = (ds ++ [e]).flatMap (els L) ∧
        (els (L + 1) n).length = ds.length * cap c L + (els L e).length := by
    intro n hn
    match n, hn with
    | .inner none cs, hn =>
      simp only [Reg] at hn
      obtain ⟨hl, ds, e, rfl, hd, he⟩ := hn
      refine ⟨ds, e, rfl, by simpa using hl, hd, he, rfl, ?_⟩
      simp only [els, List.flatMap_append, List.flatMap_cons, List.flatMap_nil, List.append_nil,
        List.length_append]
      rw [els_len_const (fun x hx => (hd x hx).len)]
  match p, h with
  | .reg n s size, h =>
    obtain ⟨rfl, hr, rfl, h1, h2⟩ := h
    obtain ⟨ds, e, hn, hl, hd, he, hels, hlen⟩ := key n hr
    exact Or.inl ⟨n, size, ⟨ds, e, hn, hl, hd, he, hels, by omega⟩, Or.inl rfl, h1⟩
  | .regSub n s size, h =>
    obtain ⟨rfl, hr, rfl, h2⟩ := h
    obtain ⟨ds, e, hn, hl, hd, he, hels, hlen⟩ := key n hr
    have := hr.len
    refine Or.inl ⟨n, size, ⟨ds, e, hn, hl, hd, he, hels, ?_⟩, Or.inr ⟨rfl, by omega⟩, by omega⟩
    rw [Nat.mod_eq_of_lt (by omega)]; omega
  | .full n s, h =>
    obtain ⟨rfl, hr, rfl⟩ := h
    match n, hr with
    | .inner none cs, hr => exact Or.inr (Or.inl ⟨cs, rfl, hr.1, hr.2, rfl⟩)
    | .inner (some _) _, hr => simp [Full] at hr
    | .leaf _, hr => simp [Full] at hr
  | .rel n s sz, h =>
    obtain ⟨rfl, hr, rfl, cs, rfl⟩ := h
    simp only [WF] at hr
    obtain ⟨h1, h2, h3, rfl⟩ := hr
    exact Or.inr (Or.inr ⟨cs, h1, h2, h3, rfl, rfl⟩)
  | .leaf _ _, h => simp [PosOK] at h
  | .leafSub _ _, h => simp [PosOK] at h
  | .fullLeaf _, h => simp [PosOK] at h

/-- common description of an inner position -/
theorem PosOK.inner {L : Nat} {p : Pos T} {l : List T} (h : PosOK c (L + 1) p l) :
    ∃ r cs, p.node = .inner r cs ∧ cs ≠ [] ∧ cs.length ≤ 2 ^ c.B ∧ (∀ x ∈ cs, WF c L x) ∧
      l = cs.flatMap (els L) ∧ p.count c = cs.length ∧ p.shift = c.BL + c.B * L := by
  rcases h.regular with ⟨n, size, ⟨ds, e, rfl, hl, hd, he, rfl, hsz⟩, hp, h1⟩ | ⟨cs, rfl, hl, hd, rfl⟩ |
    ⟨cs, hne, hl, hw, rfl, rfl⟩
  · have := hp.count hl hd he h1 hsz
    refine ⟨none, ds ++ [e], ?_, by simp, by simpa using hl, ?_, rfl, by simpa using this.1, ?_⟩
    · rcases hp with rfl | ⟨rfl, _⟩ <;> rfl
    · intro x hx
      simp only [List.mem_append, List.mem_singleton] at hx
      rcases hx with hx | rfl
      · exact (hd x hx).reg.wf
      · exact he.wf
    · rcases hp with rfl | ⟨rfl, _⟩ <;> rfl
  · refine ⟨none, cs, rfl, ?_, by omega, fun x hx => (hd x hx).reg.wf, rfl, by simp [Pos.count, hl], rfl⟩
    intro h0; rw [h0] at hl; simp at hl
    have := Nat.two_pow_pos c.B; omega
  · exact ⟨_, cs, rfl, hne, hl, hw, rfl, by simp [Pos.count, psums_length], rfl⟩

end Rrb
