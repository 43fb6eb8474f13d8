import Verif.Mem.Reach
import Verif.VecHeap.Model

/-!
# What the nodes of vectors stand for
-/

namespace VecHeap
open Mm Rrb

variable {T : Type}

/-- a node of a tree, or a table of sizes -/
inductive Val (T : Type) where
  | node (N : Node T)
  | table (sz : List Nat)

def outsD : Dat → List Nat
  | .leaf => []
  | .inner _ r ks => r.toList ++ ks
  | .table _ _ => []

/-- elements at the start of the memory for them -/
def Elems (els : List (Slot T)) (xs : List T) : Prop := ∃ k, els = xs.map .live ++ List.replicate k .raw

/-- Nodes whose references are counted have room for everything. -/
def okD (c : Cfg) (gc : Bool) : Dat → List (Slot T) → List (Val T) → Val T → Prop
  | .leaf, els, vs, v => vs = [] ∧ (gc = false → els.length = 2 ^ c.BL) ∧ ∃ xs, Elems els xs ∧ v = .node (.leaf xs)
  | .inner cap r ks, els, vs, v => els = [] ∧ (gc = false → cap = 2 ^ c.B) ∧ ks.length ≤ cap ∧ ∃ rs Ns, v = .node (.inner rs Ns) ∧
      ks.length = Ns.length ∧ r.isSome = rs.isSome ∧ vs = rs.toList.map Val.table ++ Ns.map Val.node
  | .table cap sz, els, vs, v => els = [] ∧ (gc = false → cap = 2 ^ c.B) ∧ sz.length ≤ cap ∧ vs = [] ∧ v = .table sz

/-- Nodes made by a transient have room for everything. -/
def tokD (c : Cfg) (t : Nat) : Dat → List (Slot T) → Prop
  | .leaf, els => t ≠ 0 → els.length = 2 ^ c.BL
  | .inner cap _ _, _ => t ≠ 0 → cap = 2 ^ c.B
  | .table cap _, _ => t ≠ 0 → cap = 2 ^ c.B

/-- the tokens of transients in use -/
structure Toks (gc : Bool) where
  live : Nat → Prop
  live0 : ¬ live 0
  liveGc : gc = false → ∀ t, ¬ live t

def sys (c : Cfg) (E : Env Dat T) (u : Toks E.gc) : Sys Dat T (Val T) where
  gc := E.gc
  live := u.live
  live0 := u.live0
  liveGc := u.liveGc
  outs := outsD
  Ok := okD c E.gc
  Tk := tokD c

theorem map_node_inj {xs ys : List (Node T)} (h : xs.map Val.node = ys.map Val.node) : xs = ys := by
  induction xs generalizing ys with
  | nil => cases ys with
    | nil => rfl
    | cons => cases h
  | cons x xs ih => cases ys with
    | nil => cases h
    | cons y ys =>
      simp only [List.map_cons, List.cons.injEq, Val.node.injEq] at h
      rw [h.1, ih h.2]

theorem Elems.unique {els : List (Slot T)} {xs ys : List T} (h : Elems els xs) (h' : Elems els ys) : xs = ys := by
  obtain ⟨k, rfl⟩ := h
  obtain ⟨k', h⟩ := h'
  induction xs generalizing ys with
  | nil =>
    cases ys with
    | nil => rfl
    | cons y ys =>
      cases k with
      | zero => simp at h
      | succ k => simp [List.replicate_succ] at h
  | cons x xs ih =>
    cases ys with
    | nil =>
      cases k' with
      | zero => simp at h
      | succ k => simp [List.replicate_succ] at h
    | cons y ys =>
      simp only [List.map_cons, List.cons_append, List.cons.injEq, Slot.live.injEq] at h
      rw [h.1, ih h.2]

theorem Elems.length_le {els : List (Slot T)} {xs : List T} (h : Elems els xs) : xs.length ≤ els.length := by
  obtain ⟨k, rfl⟩ := h
  simp

noncomputable def ranked (c : Cfg) (E : Env Dat T) (u : Toks E.gc) : Ranked (sys c E u) where
  rank := fun
    | .node N => sizeOf N + 1
    | .table _ => 0
  lt := by
    intro d els vs v h x hx
    cases d with
    | leaf => obtain ⟨rfl, _⟩ := h; cases hx
    | inner cap r ks =>
      obtain ⟨_, _, _, rs, Ns, rfl, _, _, rfl⟩ := h
      rcases List.mem_append.mp hx with hx | hx
      · obtain ⟨_, _, rfl⟩ := List.mem_map.mp hx
        exact Nat.succ_pos _
      · obtain ⟨N, hN, rfl⟩ := List.mem_map.mp hx
        have := List.sizeOf_lt_of_mem hN
        simp only [Node.inner.sizeOf_spec]
        omega
    | table => obtain ⟨_, _, _, rfl, _⟩ := h; cases hx
  uniq := by
    intro d els vs v v' h h'
    cases d with
    | leaf =>
      obtain ⟨_, _, xs, h2, rfl⟩ := h
      obtain ⟨_, _, ys, h3, rfl⟩ := h'
      rw [h2.unique h3]
    | inner cap r ks =>
      obtain ⟨_, _, _, rs, Ns, rfl, _, h1, h2⟩ := h
      obtain ⟨_, _, _, rs', Ns', rfl, _, h1', h2'⟩ := h'
      rw [h1] at h1'
      rw [h2] at h2'
      cases rs with
      | none =>
        cases rs' with
        | none =>
          simp only [Option.toList_none, List.map_nil, List.nil_append] at h2'
          rw [map_node_inj h2']
        | some => cases h1'
      | some =>
        cases rs' with
        | none => cases h1'
        | some =>
          simp only [Option.toList_some, List.map_cons, List.map_nil, List.cons_append, List.nil_append, List.cons.injEq, Val.table.injEq] at h2'
          rw [map_node_inj h2'.2, h2'.1]
    | table => obtain ⟨_, _, _, _, rfl⟩ := h; obtain ⟨_, _, _, _, rfl⟩ := h'; rfl

variable {c : Cfg} {gc : Bool} {d : Dat} {els : List (Slot T)} {vs : List (Val T)} {xs : List T} {Ns : List (Node T)}

theorem okD_leaf (h : okD c gc d els vs (.node (.leaf xs))) : d = .leaf ∧ vs = [] ∧ Elems els xs ∧ (gc = false → els.length = 2 ^ c.BL) := by
  cases d with
  | leaf => obtain ⟨h1, h2, xs', h3, h4⟩ := h; cases h4; exact ⟨rfl, h1, h3, h2⟩
  | inner => obtain ⟨_, _, _, _, _, h, _⟩ := h; cases h
  | table => obtain ⟨_, _, _, _, h⟩ := h; cases h

theorem okD_inner (h : okD c gc d els vs (.node (.inner none Ns))) : ∃ cap ks, d = .inner cap none ks ∧ els = [] ∧ (gc = false → cap = 2 ^ c.B) ∧
    ks.length ≤ cap ∧ ks.length = Ns.length ∧ vs = Ns.map Val.node := by
  cases d with
  | leaf => obtain ⟨_, _, _, _, h⟩ := h; cases h
  | inner cap r ks =>
    obtain ⟨h1, h2, h3, rs, Ns', h4, h5, h6, h7⟩ := h
    cases h4
    cases r with
    | some => cases h6
    | none => exact ⟨cap, ks, rfl, h1, h2, h3, h5, h7⟩
  | table => obtain ⟨_, _, _, _, h⟩ := h; cases h

theorem okD_inner' {cap : Nat} {ks : List Nat} (h1 : gc = false → cap = 2 ^ c.B) (h2 : ks.length ≤ cap) (h3 : ks.length = Ns.length) :
    okD c gc (.inner cap none ks) ([] : List (Slot T)) (Ns.map Val.node) (.node (.inner none Ns)) :=
  ⟨rfl, h1, h2, none, Ns, rfl, h3, rfl, rfl⟩

theorem okD_leaf' (h : Elems els xs) (h2 : gc = false → els.length = 2 ^ c.BL) : okD c gc .leaf els [] (.node (.leaf xs)) :=
  ⟨rfl, h2, xs, h, rfl⟩

end VecHeap
