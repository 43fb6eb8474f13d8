import Verif.Rrb.VisitSpec

/-!
# Where regular nodes may be incomplete

Equality (operations.hpp 411-437) and `first_sub_inner` (position.hpp 986-995) rely on something stronger than well
formedness: a regular node below a relaxed one is full, unless it is on the right edge of the tree.
-/

namespace Rrb

variable {T : Type} {c : Cfg}

/-- a relaxed node with exact sizes -/
def relOf (L : Nat) (cs : List (Node T)) : Node T := .inner (some (psums 0 (cs.map (fun x => (els L x).length)))) cs

/-- children -/
def kids : Node T → List (Node T)
  | .inner _ cs => cs
  | .leaf _ => []

theorem els_kids {L : Nat} {n : Node T} (h : WF c (L + 1) n) : els (L + 1) n = (kids n).flatMap (els L) := by
  obtain ⟨r, cs, rfl, -⟩ := h.kids; rfl

variable (c) in
/-- regular subtrees off the right edge are full; with `f` also those on the right edge -/
def Str : Bool → Nat → Node T → Prop
  | _, 0, _ => True
  | f, L + 1, .inner none cs => f = true → Full c (L + 1) (.inner none cs)
  | f, L + 1, .inner (some _) cs => ∀ a x b, cs = a ++ x :: b → Str (f || !b.isEmpty) L x
  | _, _ + 1, .leaf _ => True

variable (c) in
/-- the same for consecutive siblings -/
def SL (f : Bool) (L : Nat) (cs : List (Node T)) : Prop := ∀ a x b, cs = a ++ x :: b → Str c (f || !b.isEmpty) L x

theorem Str.rel {f : Bool} {L : Nat} {sz : List Nat} {cs : List (Node T)} :
    Str c f (L + 1) (.inner (some sz) cs) ↔ SL c f L cs := by rfl

theorem Str.mono : ∀ {L : Nat} {f g : Bool} {n : Node T}, (g = true → f = true) → Str c f L n → Str c g L n
  | 0, _, _, _, _, _ => trivial
  | _ + 1, _, _, .inner none _, hfg, h => fun hg => h (hfg hg)
  | _ + 1, f, g, .inner (some _) _, hfg, h => by
    intro a x b hab
    refine Str.mono ?_ (h a x b hab)
    cases f <;> cases g <;> simp at hfg ⊢
  | _ + 1, _, _, .leaf _, _, _ => trivial

theorem SL.mono {L : Nat} {f g : Bool} {cs : List (Node T)} (hfg : g = true → f = true) (h : SL c f L cs) : SL c g L cs := by
  intro a x b hab
  refine Str.mono ?_ (h a x b hab)
  cases f <;> cases g <;> simp at hfg ⊢

theorem Full.str : ∀ {L : Nat} {f : Bool} {n : Node T}, Full c L n → Str c f L n
  | 0, _, _, _ => trivial
  | _ + 1, _, .inner none _, h => fun _ => h
  | _ + 1, _, .inner (some _) _, h => by simp [Full] at h
  | _ + 1, _, .leaf _, h => by simp [Full] at h

theorem Reg.str : ∀ {L : Nat} {n : Node T}, Reg c L n → Str c false L n
  | 0, _, _ => trivial
  | _ + 1, .inner none _, _ => fun h => by simp at h
  | _ + 1, .inner (some _) _, h => by simp [Reg] at h
  | _ + 1, .leaf _, h => by simp [Reg] at h

theorem SL.nil {L : Nat} {f : Bool} : SL (T := T) c f L [] := by intro a x b h; simp at h

theorem SL.append {L : Nat} {f : Bool} {xs ys : List (Node T)} :
    SL c f L (xs ++ ys) ↔ SL c (f || !ys.isEmpty) L xs ∧ SL c f L ys := by
  constructor
  · intro h
    constructor
    · intro a x b hab
      have := h a x (b ++ ys) (by rw [hab]; simp)
      have e : (f || !(b ++ ys).isEmpty) = (f || !ys.isEmpty || !b.isEmpty) := by
        cases f <;> cases b <;> cases ys <;> simp
      rwa [e] at this
    · intro a x b hab
      exact h (xs ++ a) x b (by rw [hab]; simp)
  · rintro ⟨h1, h2⟩ a x b hab
    rcases List.append_eq_append_iff.1 hab with ⟨a', ha, hy⟩ | ⟨c', hx, hb⟩
    · exact h2 a' x b hy
    · cases c' with
      | nil =>
        simp at hx hb
        have := h2 [] x b (by simpa using hb.symm)
        exact this
      | cons z zs =>
        simp at hb
        obtain ⟨rfl, rfl⟩ := hb
        have := h1 a x zs hx
        have e : (f || !(zs ++ ys).isEmpty) = (f || !ys.isEmpty || !zs.isEmpty) := by
          cases f <;> cases zs <;> cases ys <;> simp
        rwa [e]

theorem SL.cons {L : Nat} {f : Bool} {x : Node T} {ys : List (Node T)} :
    SL c f L (x :: ys) ↔ Str c (f || !ys.isEmpty) L x ∧ SL c f L ys := by
  have := SL.append (c := c) (L := L) (f := f) (xs := [x]) (ys := ys)
  rw [List.singleton_append] at this
  rw [this]
  refine and_congr_left fun _ => ⟨fun h => by simpa using h [] x [] rfl, fun h => ?_⟩
  intro a z b hab
  cases a with
  | nil => simp at hab; obtain ⟨rfl, rfl⟩ := hab; simpa using h
  | cons w ws => simp at hab

theorem SL.all {L : Nat} {f : Bool} {cs : List (Node T)} (h : ∀ x ∈ cs, Str c true L x) : SL c f L cs := by
  intro a x b hab
  exact Str.mono (by simp) (h x (by rw [hab]; simp))

theorem SL.true_iff {L : Nat} {cs : List (Node T)} : SL c true L cs ↔ ∀ x ∈ cs, Str c true L x := by
  constructor
  · intro h x hx
    obtain ⟨a, b, rfl⟩ := List.append_of_mem hx
    simpa using h a x b rfl
  · exact SL.all

theorem SL.zero {f : Bool} {cs : List (Node T)} : SL c f 0 cs := fun _ _ _ _ => by simp [Str]

/-- the children of a node are siblings in that sense -/
theorem Str.kids {L : Nat} {f : Bool} {n : Node T} (hw : WF c (L + 1) n) (h : Str c f (L + 1) n) : SL c f L (kids n) := by
  match n, hw, h with
  | .inner (some sz) cs, _, h => exact h
  | .inner none cs, hw, h =>
    simp only [WF, Reg] at hw
    obtain ⟨hl, ds, e, rfl, hd, he⟩ := hw
    show SL c f L (ds ++ [e])
    cases f with
    | true =>
      have hf := h rfl
      simp only [Full] at hf
      exact SL.all fun x hx => (hf.2 x hx).str
    | false =>
      rw [SL.append]
      refine ⟨SL.all fun x hx => (hd x hx).str, ?_⟩
      rw [SL.cons]
      exact ⟨by simpa using he.str, SL.nil⟩
  | .leaf xs, hw, _ => simp [WF] at hw

theorem kids_ne {L : Nat} {n : Node T} (h : WF c (L + 1) n) : kids n ≠ [] := by
  obtain ⟨r, cs, rfl, hne, -⟩ := h.kids; exact hne

theorem flatMap_kids_isEmpty {L : Nat} {xs : List (Node T)} (hw : ∀ x ∈ xs, WF c (L + 1) x) :
    (xs.flatMap kids).isEmpty = xs.isEmpty := by
  cases xs with
  | nil => rfl
  | cons x xs =>
    have := kids_ne (hw x (by simp))
    cases hk : kids x with
    | nil => exact absurd hk this
    | cons y ys => simp [hk]

theorem SL.kids {L : Nat} {f : Bool} {xs : List (Node T)} (hw : ∀ x ∈ xs, WF c (L + 1) x) (h : SL c f (L + 1) xs) :
    SL c f L (xs.flatMap Rrb.kids) := by
  induction xs with
  | nil => exact SL.nil
  | cons x xs ih =>
    rw [SL.cons] at h
    rw [List.flatMap_cons, SL.append, flatMap_kids_isEmpty (fun y hy => hw y (by simp [hy]))]
    exact ⟨h.1.kids (hw x (by simp)), ih (fun y hy => hw y (by simp [hy])) h.2⟩

/-- regrouping children: nodes that are relaxed may hold any of them, the others must be right themselves -/
theorem SL.regroup {L : Nat} {f : Bool} {ys : List (Node T)} (hw : ∀ y ∈ ys, WF c (L + 1) y)
    (h : SL c f L (ys.flatMap Rrb.kids))
    (hk : ∀ a y b, ys = a ++ y :: b → (∃ cs, y = relOf L cs) ∨ Str c (f || !b.isEmpty) (L + 1) y) :
    SL c f (L + 1) ys := by
  intro a y b hab
  rcases hk a y b hab with ⟨cs, rfl⟩ | h'
  · rw [relOf, Str.rel]
    rw [hab, List.flatMap_append, List.flatMap_cons, SL.append, SL.append] at h
    have := h.2.1
    rw [flatMap_kids_isEmpty (fun z hz => hw z (by rw [hab]; simp [hz]))] at this
    exact this
  · exact h'

theorem PosOK.wf {L : Nat} {p : Pos T} {l : List T} (h : PosOK c L p l) : WF c L p.node ∧ els L p.node = l := by
  cases L with
  | zero => obtain ⟨hn, -, h1, h2, -⟩ := h.leaf; rw [hn]; exact ⟨⟨h1, h2⟩, rfl⟩
  | succ L =>
    match p, h with
    | .reg n s size, h => exact ⟨h.2.1.wf, h.2.2.1⟩
    | .regSub n s size, h => exact ⟨h.2.1.wf, h.2.2.1⟩
    | .full n s, h => exact ⟨h.2.1.reg.wf, h.2.2⟩
    | .rel n s sz, h => exact ⟨h.2.1, h.2.2.1⟩

/-! ## Trees with as many elements as fit -/

theorem sum_le_mul {m : Nat} : ∀ (xs : List Nat), (∀ x ∈ xs, x ≤ m) → xs.sum ≤ xs.length * m
  | [], _ => by simp
  | x :: xs, h => by
    have h1 := h x (by simp)
    have h2 := sum_le_mul xs (fun y hy => h y (by simp [hy]))
    simp only [List.sum_cons, List.length_cons, Nat.add_mul, Nat.one_mul]
    omega

theorem sum_max_eq {m k : Nat} : ∀ (xs : List Nat), (∀ x ∈ xs, x ≤ m) → xs.length ≤ k → xs.sum = k * m → 0 < m →
    ∀ x ∈ xs, x = m
  | [], _, _, _, _ => by simp
  | x :: xs, h, hl, hs, hm => by
    have hx := h x (by simp)
    have hxs : xs.sum ≤ xs.length * m := sum_le_mul xs (fun y hy => h y (by simp [hy]))
    simp only [List.length_cons] at hl
    obtain ⟨k, rfl⟩ : ∃ j, k = j + 1 := ⟨k - 1, by omega⟩
    have h1 : xs.length * m ≤ k * m := Nat.mul_le_mul_right _ (by omega)
    simp only [List.sum_cons, Nat.add_mul, Nat.one_mul] at hs
    intro y hy
    simp only [List.mem_cons] at hy
    rcases hy with rfl | hy
    · omega
    · exact sum_max_eq (k := k) xs (fun y hy => h y (by simp [hy])) (by omega) (by omega) hm y hy

/-- a subtree with as many elements as fit has only full regular nodes -/
theorem Str.of_len : ∀ {L : Nat} {n : Node T}, WF c L n → (els L n).length = cap c L → Str c true L n
  | 0, _, _, _ => trivial
  | L + 1, .inner none cs, h, hl => fun _ => by
    simp only [WF] at h
    exact h.full_of_len hl
  | L + 1, .inner (some sz) cs, h, hl => by
    obtain ⟨h1, h2, h3, h4⟩ := h
    rw [Str.rel, SL.true_iff]
    intro x hx
    refine Str.of_len (h3 x hx) ?_
    have := sum_max_eq (m := cap c L) (k := 2 ^ c.B) (cs.map (fun x => (els L x).length)) (by
      intro y hy
      simp only [List.mem_map] at hy
      obtain ⟨z, hz, rfl⟩ := hy
      exact (h3 z hz).len.2) (by simpa using h2) (by
      simp only [els, List.length_flatMap] at hl
      rw [hl, cap_succ, Nat.mul_comm]) (cap_pos c L)
    exact this _ (List.mem_map.2 ⟨x, hx, rfl⟩)
  | _ + 1, .leaf _, h, _ => by simp [WF] at h

theorem SameShape.str : ∀ {L : Nat} {f : Bool} {n m : Node T}, SameShape L n m → Str c f L n → Str c f L m
  | 0, _, _, _, _, _ => trivial
  | L + 1, f, .inner none cs, .inner r ds, h, hs => by
    have h' := h
    obtain ⟨rfl, h⟩ := h
    intro hf
    exact SameShape.full h' (hs hf)
  | L + 1, f, .inner (some sz) cs, .inner r ds, h, hs => by
    obtain ⟨rfl, h⟩ := h
    rw [Str.rel] at hs ⊢
    intro a y b hab
    have hl := h.length_eq
    have hi : a.length < ds.length := by rw [hab]; simp
    have h1 := h.get (by omega) hi
    have hy : ds[a.length] = y := by simp [hab]
    have hb : b.length = ds.length - (a.length + 1) := by rw [hab]; simp; omega
    have h2 := hs (cs.take a.length) cs[a.length] (cs.drop (a.length + 1)) (by simp)
    have e : (!b.isEmpty) = !(cs.drop (a.length + 1)).isEmpty := by
      congr 1
      rw [Bool.eq_iff_iff, List.isEmpty_iff, List.isEmpty_iff, ← List.length_eq_zero_iff, ← List.length_eq_zero_iff, hb,
        List.length_drop, hl]
    rw [e]
    rw [List.get_eq_getElem, List.get_eq_getElem] at h1
    simp only [hy] at h1
    exact SameShape.str h1 h2
  | _ + 1, _, .leaf _, _, h, _ => by simp [SameShape] at h
  | _ + 1, _, .inner _ _, .leaf _, h, _ => by simp [SameShape] at h

/-! ## The leftmost path -/

/-- going down the leftmost path of a tree of level `L + 1`, only relaxed nodes have just one child -/
def LftOK : Nat → Node T → Prop
  | 0, _ => True
  | L + 1, n => 2 ≤ (kids n).length ∨ ∃ sz x, n = .inner (some sz) [x] ∧ LftOK L x

/-- the same for the children of a node -/
def LftL (L : Nat) (ns : List (Node T)) : Prop := 2 ≤ ns.length ∨ ∃ L' n, L = L' + 1 ∧ ns = [n] ∧ LftOK L' n

/-- a regular node has a second child just when there are more elements than fit below one -/
theorem Reg.two {L : Nat} {n : Node T} (h : Reg c (L + 1) n) : 2 ≤ (kids n).length ↔ cap c L < (els (L + 1) n).length := by
  match n, h with
  | .inner none cs, hn =>
    simp only [Reg] at hn
    obtain ⟨hl, ds, e, rfl, hd, he⟩ := hn
    have : (els (L + 1) (.inner none (ds ++ [e]))).length = ds.length * cap c L + (els L e).length := by
      simp only [els, List.flatMap_append, List.flatMap_cons, List.flatMap_nil, List.append_nil, List.length_append]
      rw [els_len_const (fun x hx => (hd x hx).len)]
    rw [this]
    simp only [kids, List.length_append, List.length_singleton]
    obtain ⟨e1, e2, -⟩ := he.len
    rcases Nat.eq_zero_or_pos ds.length with h0 | h0
    · rw [h0]; simp; omega
    · have : cap c L ≤ ds.length * cap c L := Nat.le_mul_of_pos_left _ h0
      omega
  | .inner (some _) _, h => simp [Reg] at h
  | .leaf _, h => simp [Reg] at h

theorem Str.lft (hB : 0 < c.B) : ∀ {L : Nat} {n : Node T}, WF c (L + 1) n → Str c true (L + 1) n → LftOK L n
  | 0, _, _, _ => trivial
  | L + 1, .inner none cs, _, hs => by
    have := hs rfl
    simp only [Full] at this
    left
    have h2 : 2 ^ 1 ≤ 2 ^ c.B := Nat.pow_le_pow_right (by omega) hB
    simp only [Rrb.kids]; omega
  | L + 1, .inner (some sz) cs, hw, hs => by
    obtain ⟨h1, h2, h3, h4⟩ := hw
    rw [Str.rel, SL.true_iff] at hs
    match cs, h1 with
    | [x], _ => exact Or.inr ⟨sz, x, rfl, Str.lft hB (h3 x (by simp)) (hs x (by simp))⟩
    | x :: y :: ys, _ => left; simp [Rrb.kids]
  | _ + 1, .leaf _, h, _ => by simp [WF] at h

/-- of a regular subtree with a second child somewhere at the top -/
theorem Reg.lft {L : Nat} {n : Node T} (h : Reg c (L + 1) n) (h1 : L = 0 ∨ cap c L < (els (L + 1) n).length) : LftOK L n := by
  cases L with
  | zero => trivial
  | succ L => exact Or.inl (h.two.2 (by simpa using h1))

theorem SameShape.kids {L : Nat} {n m : Node T} (h : SameShape (L + 1) n m) : (kids n).length = (Rrb.kids m).length := by
  match n, m, h with
  | .inner r cs, .inner r' ds, h => exact h.2.length_eq
  | .leaf _, _, h => simp [SameShape] at h
  | .inner _ _, .leaf _, h => simp [SameShape] at h

theorem SameShape.lft : ∀ {L : Nat} {n m : Node T}, SameShape (L + 1) n m → LftOK L n → LftOK L m
  | 0, _, _, _, _ => trivial
  | L + 1, n, m, h, hl => by
    rcases hl with hl | ⟨sz, x, rfl, hl⟩
    · left; rw [← h.kids]; exact hl
    · match m, h with
      | .inner r ds, h =>
        obtain ⟨rfl, h⟩ := h
        cases h with
        | cons h1 h2 =>
          cases h2
          exact Or.inr ⟨sz, _, rfl, SameShape.lft h1 hl⟩
      | .leaf _, h => simp [SameShape] at h

end Rrb
