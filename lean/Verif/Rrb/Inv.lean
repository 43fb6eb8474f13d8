import Verif.Rrb.Pos
import Mathlib.Tactic.Ring

/-!
# Invariants of radix balanced trees and what positions denote

Levels: a leaf is at level 0; an inner node at level `L + 1` has `shift = BL + B * L`.
-/

namespace Rrb

variable {T : Type} (c : Cfg)

/-- number of elements a full node of level `L` holds -/
def cap (L : Nat) : Nat := 2 ^ (c.BL + c.B * L)

/-- the elements below a node of level `L`, left to right -/
def els : Nat → Node T → List T
  | 0, .leaf xs => xs
  | L + 1, .inner _ cs => cs.flatMap (els L)
  | _, _ => []

/-- all slots used, everywhere -/
def Full : Nat → Node T → Prop
  | 0, .leaf xs => xs.length = 2 ^ c.BL
  | L + 1, .inner none cs => cs.length = 2 ^ c.B ∧ ∀ x ∈ cs, Full L x
  | _, _ => False

/-- regular node: full leaves, all children full but the last, which is regular -/
def Reg : Nat → Node T → Prop
  | 0, .leaf xs => xs.length = 2 ^ c.BL
  | L + 1, .inner none cs => cs.length ≤ 2 ^ c.B ∧ ∃ ds e, cs = ds ++ [e] ∧ (∀ d ∈ ds, Full c L d) ∧ Reg L e
  | _, _ => False

/-- cumulative sums -/
def psums : Nat → List Nat → List Nat
  | _, [] => []
  | a, x :: xs => (a + x) :: psums (a + x) xs

/-- node of a relaxed tree: leaves non-empty and within capacity; a relaxed node has an exact table of
cumulative sizes; a regular node is regular all the way down -/
def WF : Nat → Node T → Prop
  | 0, .leaf xs => 1 ≤ xs.length ∧ xs.length ≤ 2 ^ c.BL
  | L + 1, .inner none cs => Reg c (L + 1) (.inner none cs)
  | L + 1, .inner (some sz) cs => cs ≠ [] ∧ cs.length ≤ 2 ^ c.B ∧ (∀ x ∈ cs, WF L x) ∧
      sz = psums 0 (cs.map (fun x => (els L x).length))
  | _, _ => False

/-! ## Basic facts -/

theorem cap_zero : cap c 0 = 2 ^ c.BL := by simp [cap]

theorem cap_succ (L : Nat) : cap c (L + 1) = cap c L * 2 ^ c.B := by
  simp only [cap]; rw [← pow_add]; ring_nf

theorem cap_pos (L : Nat) : 0 < cap c L := Nat.two_pow_pos _

theorem dvd_cap (L : Nat) : 2 ^ c.BL ∣ cap c L := by
  simp only [cap, pow_add]; exact Dvd.intro _ rfl

variable {c}

theorem els_len_const {L : Nat} {k : Nat} {cs : List (Node T)} (h : ∀ x ∈ cs, (els L x).length = k) :
    (cs.flatMap (els L)).length = cs.length * k := by
  induction cs with
  | nil => simp
  | cons x xs ih =>
    simp only [List.flatMap_cons, List.length_append, List.length_cons]
    rw [h x (by simp), ih (fun y hy => h y (by simp [hy]))]
    ring

theorem els_len_le {L : Nat} {k : Nat} {cs : List (Node T)} (h : ∀ x ∈ cs, (els L x).length ≤ k) :
    (cs.flatMap (els L)).length ≤ cs.length * k := by
  induction cs with
  | nil => simp
  | cons x xs ih =>
    simp only [List.flatMap_cons, List.length_append, List.length_cons]
    have h1 := h x (by simp)
    have h2 := ih (fun y hy => h y (by simp [hy]))
    rw [Nat.add_mul]; omega

theorem Full.len : ∀ {L : Nat} {n : Node T}, Full c L n → (els L n).length = cap c L
  | 0, .leaf xs, h => by simpa [els, cap, Full] using h
  | L + 1, .inner none cs, h => by
    simp only [Full] at h
    simp only [els]
    rw [els_len_const (fun x hx => Full.len (h.2 x hx)), h.1, cap_succ]; ring
  | 0, .inner _ _, h => by simp [Full] at h
  | _ + 1, .leaf _, h => by simp [Full] at h
  | _ + 1, .inner (some _) _, h => by simp [Full] at h

theorem Full.reg : ∀ {L : Nat} {n : Node T}, Full c L n → Reg c L n
  | 0, .leaf xs, h => h
  | L + 1, .inner none cs, h => by
    simp only [Full] at h
    have hne : cs ≠ [] := by
      intro h0; rw [h0] at h; simp at h
      have := Nat.two_pow_pos c.B; omega
    refine ⟨by omega, cs.dropLast, cs.getLast hne, (List.dropLast_append_getLast hne).symm, ?_, ?_⟩
    · intro d hd; exact h.2 d ((List.dropLast_sublist cs).subset hd)
    · exact Full.reg (h.2 _ (List.getLast_mem hne))
  | 0, .inner _ _, h => by simp [Full] at h
  | _ + 1, .leaf _, h => by simp [Full] at h
  | _ + 1, .inner (some _) _, h => by simp [Full] at h

/-- length of a regular node: a positive multiple of the leaf size within capacity -/
theorem Reg.len : ∀ {L : Nat} {n : Node T}, Reg c L n →
    0 < (els L n).length ∧ (els L n).length ≤ cap c L ∧ 2 ^ c.BL ∣ (els L n).length
  | 0, .leaf xs, h => by
    simp only [Reg] at h
    simp only [els, cap_zero, h]
    exact ⟨Nat.two_pow_pos _, le_refl _, dvd_refl _⟩
  | L + 1, .inner none cs, h => by
    simp only [Reg] at h
    obtain ⟨hl, ds, e, rfl, hd, he⟩ := h
    obtain ⟨h1, h2, h3⟩ := Reg.len he
    simp only [els, List.flatMap_append, List.flatMap_cons, List.flatMap_nil, List.append_nil,
      List.length_append]
    rw [els_len_const (fun x hx => (hd x hx).len), cap_succ]
    simp at hl
    refine ⟨by omega, ?_, ?_⟩
    · calc ds.length * cap c L + (els L e).length ≤ ds.length * cap c L + cap c L := by omega
        _ = (ds.length + 1) * cap c L := by ring
        _ ≤ 2 ^ c.B * cap c L := Nat.mul_le_mul_right _ hl
        _ = _ := by ring
    · exact Nat.dvd_add (Dvd.dvd.mul_left (dvd_cap c L) _) h3
  | 0, .inner _ _, h => by simp [Reg] at h
  | _ + 1, .leaf _, h => by simp [Reg] at h
  | _ + 1, .inner (some _) _, h => by simp [Reg] at h

/-- a regular node with as many elements as fit is full -/
theorem Reg.full_of_len : ∀ {L : Nat} {n : Node T}, Reg c L n → (els L n).length = cap c L → Full c L n
  | 0, .leaf xs, h, _ => h
  | L + 1, .inner none cs, h, hlen => by
    simp only [Reg] at h
    obtain ⟨hl, ds, e, rfl, hd, he⟩ := h
    obtain ⟨h1, h2, h3⟩ := Reg.len he
    simp only [els, List.flatMap_append, List.flatMap_cons, List.flatMap_nil, List.append_nil,
      List.length_append] at hlen
    rw [els_len_const (fun x hx => (hd x hx).len), cap_succ] at hlen
    simp at hl
    have hc := cap_pos c L
    have hds : ds.length + 1 = 2 ^ c.B := by
      by_contra hne
      have : ds.length + 2 ≤ 2 ^ c.B := by omega
      have := Nat.mul_le_mul_right (cap c L) this
      have e1 : (ds.length + 2) * cap c L = ds.length * cap c L + 2 * cap c L := by ring
      have e2 : 2 ^ c.B * cap c L = cap c L * 2 ^ c.B := by ring
      omega
    have hel : (els L e).length = cap c L := by
      rw [← hds] at hlen
      have e1 : cap c L * (ds.length + 1) = ds.length * cap c L + cap c L := by ring
      omega
    refine ⟨by simpa using hds, ?_⟩
    intro x hx
    simp only [List.mem_append, List.mem_singleton] at hx
    rcases hx with hx | rfl
    · exact hd x hx
    · exact Reg.full_of_len he hel
  | 0, .inner _ _, h, _ => by simp [Reg] at h
  | _ + 1, .leaf _, h, _ => by simp [Reg] at h
  | _ + 1, .inner (some _) _, h, _ => by simp [Reg] at h

theorem Reg.wf : ∀ {L : Nat} {n : Node T}, Reg c L n → WF c L n
  | 0, .leaf xs, h => by
    simp only [Reg] at h
    simp only [WF]
    have := Nat.two_pow_pos c.BL
    omega
  | L + 1, .inner none cs, h => h
  | 0, .inner _ _, h => by simp [Reg] at h
  | _ + 1, .leaf _, h => by simp [Reg] at h
  | _ + 1, .inner (some _) _, h => by simp [Reg] at h

theorem WF.len : ∀ {L : Nat} {n : Node T}, WF c L n → 0 < (els L n).length ∧ (els L n).length ≤ cap c L
  | 0, .leaf xs, h => by simp only [WF] at h; simp only [els, cap_zero]; omega
  | L + 1, .inner none cs, h => by
    simp only [WF] at h
    exact ⟨h.len.1, h.len.2.1⟩
  | L + 1, .inner (some sz) cs, h => by
    simp only [WF] at h
    obtain ⟨h1, h2, h3, -⟩ := h
    simp only [els]
    constructor
    · cases cs with
      | nil => simp at h1
      | cons x xs =>
        have := (WF.len (h3 x (by simp))).1
        simp only [List.flatMap_cons, List.length_append]; omega
    · refine (els_len_le (fun x hx => (WF.len (h3 x hx)).2)).trans ?_
      rw [cap_succ, mul_comm]
      exact Nat.mul_le_mul_left _ h2
  | 0, .inner _ _, h => by simp [WF] at h
  | _ + 1, .leaf _, h => by simp [WF] at h

/-- children of a well formed inner node -/
theorem WF.kids {L : Nat} {n : Node T} (h : WF c (L + 1) n) :
    ∃ r cs, n = .inner r cs ∧ cs ≠ [] ∧ cs.length ≤ 2 ^ c.B ∧ (∀ x ∈ cs, WF c L x) := by
  match n, h with
  | .inner none cs, h =>
    simp only [WF, Reg] at h
    obtain ⟨hl, ds, e, rfl, hd, he⟩ := h
    refine ⟨none, _, rfl, by simp, hl, ?_⟩
    intro x hx
    simp only [List.mem_append, List.mem_singleton] at hx
    rcases hx with hx | rfl
    · exact (hd x hx).reg.wf
    · exact he.wf
  | .inner (some sz) cs, h =>
    simp only [WF] at h
    exact ⟨_, _, rfl, h.1, h.2.1, h.2.2.1⟩
  | .leaf _, h => simp [WF] at h

/-! ## Cumulative sums -/

theorem psums_length (a : Nat) (xs : List Nat) : (psums a xs).length = xs.length := by
  induction xs generalizing a with
  | nil => rfl
  | cons x xs ih => simp [psums, ih]

theorem psums_get (a : Nat) (xs : List Nat) (k : Nat) (h : k < xs.length) :
    (psums a xs)[k]? = some (a + (xs.take (k + 1)).sum) := by
  induction xs generalizing a k with
  | nil => simp at h
  | cons x xs ih =>
    cases k with
    | zero => simp [psums]
    | succ k =>
      simp only [psums, List.getElem?_cons_succ]
      rw [ih _ _ (by simpa using h)]
      simp; omega

theorem psums_append (a : Nat) (xs ys : List Nat) :
    psums a (xs ++ ys) = psums a xs ++ psums (a + xs.sum) ys := by
  induction xs generalizing a with
  | nil => simp [psums]
  | cons x xs ih => simp [psums, ih, Nat.add_assoc]

theorem psums_take (a : Nat) (xs : List Nat) (k : Nat) : (psums a xs).take k = psums a (xs.take k) := by
  induction xs generalizing a k with
  | nil => simp [psums]
  | cons x xs ih => cases k <;> simp [psums, ih]

theorem szBefore_psums (xs : List Nat) (k : Nat) (h : k ≤ xs.length) :
    Pos.szBefore (psums 0 xs) k = some ((xs.take k).sum) := by
  cases k with
  | zero => simp [Pos.szBefore]
  | succ k => simp only [Pos.szBefore]; rw [psums_get _ _ _ (by omega)]; simp

theorem take_sum_succ (xs : List Nat) (k : Nat) (h : k < xs.length) :
    (xs.take (k + 1)).sum = (xs.take k).sum + xs[k] := by
  rw [List.take_succ_eq_append_getElem h, List.sum_append]; simp

/-! ## What a position denotes -/

variable (c) in
/-- position `p` of level `L` denotes the list `l`: its node is well formed for that kind of position,
its size information is right, and its elements are `l` -/
def PosOK : Nat → Pos T → List T → Prop
  | 0, .leaf n size, l => n = .leaf l ∧ 1 ≤ size ∧ l.length = (size - 1) % 2 ^ c.BL + 1
  | 0, .leafSub n k, l => n = .leaf l ∧ l.length = k ∧ 1 ≤ k ∧ k ≤ 2 ^ c.BL
  | 0, .fullLeaf n, l => n = .leaf l ∧ l.length = 2 ^ c.BL
  | L + 1, .reg n s size, l => s = c.BL + c.B * L ∧ Reg c (L + 1) n ∧ els (L + 1) n = l ∧ 1 ≤ size ∧
      l.length = (size - 1) % cap c (L + 1) + 1
  | L + 1, .regSub n s size, l => s = c.BL + c.B * L ∧ Reg c (L + 1) n ∧ els (L + 1) n = l ∧ size = l.length
  | L + 1, .full n s, l => s = c.BL + c.B * L ∧ Full c (L + 1) n ∧ els (L + 1) n = l
  | L + 1, .rel n s sz, l => s = c.BL + c.B * L ∧ WF c (L + 1) n ∧ els (L + 1) n = l ∧
      ∃ cs, n = .inner (some sz) cs
  | _, _, _ => False

/-- an index `idx` given to position `p` means element `i` of the denoted list: relaxed positions take
exact indices, the others ignore everything above their own capacity -/
def IdxOK (c : Cfg) (L : Nat) : Pos T → Nat → Nat → Prop
  | .rel _ _ _, idx, i => idx = i
  | _, idx, i => idx % cap c L = i % cap c L

theorem IdxOK.of_eq {L : Nat} {p : Pos T} {i : Nat} : IdxOK c L p i i := by
  cases p <;> simp [IdxOK]

end Rrb
