import Verif.Mem.Reach
import Verif.ChampHeap.Model

/-!
# What the nodes of maps and sets stand for
-/

namespace ChampHeap
open Mm Champ

variable {w : Nat} {T : Type}

/-- a node, or an array of values -/
inductive Val (w : Nat) (T : Type) where
  | node (N : Node w T)
  | vals (xs : List T)

def outsD : Dat w → List Nat
  | .inner i => i.vals.toList ++ i.cs
  | _ => []

/-- sizes and pointers of an inner node -/
def OkInner (i : Inner w) (vs : List (Val w T)) (xs : List T) (Ns : List (Node w T)) : Prop :=
  xs.length = popcount i.dm ∧ Ns.length = popcount i.nm ∧ i.cs.length = popcount i.nm ∧ i.vals.isSome = !xs.isEmpty ∧
    vs = (i.vals.toList.map fun _ => Val.vals xs) ++ Ns.map Val.node

def okD : Dat w → List (Slot T) → List (Val w T) → Val w T → Prop
  | .inner i, els, vs, v => els = [] ∧ ∃ xs Ns, v = .node (.inner i.nm i.dm xs Ns) ∧ OkInner i vs xs Ns
  | .coll n, els, vs, v => vs = [] ∧ ∃ xs : List T, n = xs.length ∧ els = xs.map .live ∧ v = .node (.collision xs)
  | .vals, els, vs, v => vs = [] ∧ ∃ xs : List T, els = xs.map .live ∧ v = .vals xs

/-- the tokens of transients in use -/
structure Toks (gc : Bool) where
  live : Nat → Prop
  live0 : ¬ live 0
  liveGc : gc = false → ∀ t, ¬ live t

def sys (E : Env (Dat w) T) (k : Toks E.gc) : Sys (Dat w) T (Val w T) where
  gc := E.gc
  live := k.live
  live0 := k.live0
  liveGc := k.liveGc
  outs := outsD
  Ok := okD

theorem map_live_inj {xs ys : List T} (h : xs.map Slot.live = ys.map Slot.live) : xs = ys := by
  induction xs generalizing ys with
  | nil => cases ys with
    | nil => rfl
    | cons => cases h
  | cons x xs ih => cases ys with
    | nil => cases h
    | cons y ys =>
      simp only [List.map_cons, List.cons.injEq, Slot.live.injEq] at h
      rw [h.1, ih h.2]

theorem map_node_inj {xs ys : List (Node w T)} (h : xs.map (Val.node (T := T)) = ys.map Val.node) : xs = ys := by
  induction xs generalizing ys with
  | nil => cases ys with
    | nil => rfl
    | cons => cases h
  | cons x xs ih => cases ys with
    | nil => cases h
    | cons y ys =>
      simp only [List.map_cons, List.cons.injEq, Val.node.injEq] at h
      rw [h.1, ih h.2]

noncomputable def ranked (E : Env (Dat w) T) (k : Toks E.gc) : Ranked (sys E k) where
  rank := fun
    | .node N => sizeOf N + 1
    | .vals _ => 0
  lt := by
    intro d els vs v h u hu
    cases d with
    | inner i =>
      obtain ⟨_, xs, Ns, rfl, _, _, _, _, rfl⟩ := h
      rcases List.mem_append.mp hu with hu | hu
      · obtain ⟨_, _, rfl⟩ := List.mem_map.mp hu
        exact Nat.succ_pos _
      · obtain ⟨N, hN, rfl⟩ := List.mem_map.mp hu
        have := List.sizeOf_lt_of_mem hN
        simp only [Node.inner.sizeOf_spec]
        omega
    | coll n => obtain ⟨rfl, _⟩ := h; cases hu
    | vals => obtain ⟨rfl, _⟩ := h; cases hu
  uniq := by
    intro d els vs v v' h h'
    cases d with
    | inner i =>
      obtain ⟨_, xs, Ns, rfl, _, _, _, h4, h5⟩ := h
      obtain ⟨_, xs', Ns', rfl, _, _, _, h4', h5'⟩ := h'
      rw [h5] at h5'
      cases hv : i.vals with
      | none =>
        rw [hv] at h4 h4' h5'
        simp only [Option.toList_none, List.map_nil, List.nil_append] at h5'
        rw [map_node_inj h5']
        simp only [Option.isSome_none, Bool.false_eq, Bool.not_eq_eq_eq_not, Bool.not_false, List.isEmpty_iff] at h4 h4'
        rw [h4, h4']
      | some a =>
        rw [hv] at h5'
        simp only [Option.toList_some, List.map_cons, List.map_nil, List.cons_append, List.nil_append, List.cons.injEq, Val.vals.injEq] at h5'
        rw [map_node_inj h5'.2, h5'.1]
    | coll n =>
      obtain ⟨_, xs, _, h2, rfl⟩ := h
      obtain ⟨_, xs', _, h2', rfl⟩ := h'
      rw [map_live_inj (h2.symm.trans h2')]
    | vals =>
      obtain ⟨_, xs, h2, rfl⟩ := h
      obtain ⟨_, xs', h2', rfl⟩ := h'
      rw [map_live_inj (h2.symm.trans h2')]

variable {E : Env (Dat w) T} {k : Toks E.gc} {m m' : Mem (Dat w) T} {O : List Nat} {L : List (Ref (Val w T))}

/-- the contents of an inner node -/
theorem okD_inner {d : Dat w} {els : List (Slot T)} {vs : List (Val w T)} {nm dm : BitVec w} {xs : List T} {Ns : List (Node w T)}
    (h : okD d els vs (.node (.inner nm dm xs Ns))) : ∃ vo cs, d = .inner ⟨nm, dm, vo, cs⟩ ∧ els = [] ∧ OkInner ⟨nm, dm, vo, cs⟩ vs xs Ns := by
  cases d with
  | inner i =>
    obtain ⟨h1, xs', Ns', h2, h3⟩ := h
    simp only [Val.node.injEq, Node.inner.injEq] at h2
    obtain ⟨rfl, rfl, rfl, rfl⟩ := h2
    exact ⟨i.vals, i.cs, rfl, h1, h3⟩
  | coll n => obtain ⟨_, xs, _, _, h⟩ := h; cases h
  | vals => obtain ⟨_, xs, _, h⟩ := h; cases h

theorem okD_coll {d : Dat w} {els : List (Slot T)} {vs : List (Val w T)} {xs : List T}
    (h : okD d els vs (.node (.collision xs))) : d = .coll xs.length ∧ els = xs.map .live ∧ vs = [] := by
  cases d with
  | inner i => obtain ⟨h1, xs', Ns', h2, h3⟩ := h; cases h2
  | coll n => obtain ⟨h0, xs', h1, h2, h⟩ := h; cases h; exact ⟨by rw [h1], h2, h0⟩
  | vals => obtain ⟨_, xs, _, h⟩ := h; cases h

theorem okD_vals {d : Dat w} {els : List (Slot T)} {vs : List (Val w T)} {xs : List T}
    (h : okD d els vs (.vals xs)) : d = .vals ∧ els = xs.map .live ∧ vs = [] := by
  cases d with
  | inner i => obtain ⟨h1, xs', Ns', h2, h3⟩ := h; cases h2
  | coll n => obtain ⟨h0, xs', h1, h2, h⟩ := h; cases h
  | vals => obtain ⟨h0, xs', h1, h⟩ := h; cases h; exact ⟨rfl, h1, h0⟩

/-- references to what an inner node points to -/
structure Parts (vo : Option Nat) (cs : List Nat) (xs : List T) (Ns : List (Node w T)) (Lv Lc : List (Ref (Val w T))) : Prop where
  vptr : Lv.map Ref.ptr = vo.toList
  vval : Lv.map Ref.val = vo.toList.map fun _ => Val.vals xs
  cptr : Lc.map Ref.ptr = cs
  cval : Lc.map Ref.val = Ns.map Val.node

theorem parts {nm dm : BitVec w} {vo : Option Nat} {cs : List Nat} {xs : List T} {Ns : List (Node w T)} {Lo : List (Ref (Val w T))}
    (h : OkInner ⟨nm, dm, vo, cs⟩ (Lo.map Ref.val) xs Ns) (hp : vo.toList ++ cs = Lo.map Ref.ptr) :
    ∃ Lv Lc, Lo = Lv ++ Lc ∧ Parts vo cs xs Ns Lv Lc := by
  obtain ⟨_, h2, h3, h4, h5⟩ := h
  simp only at h3 h5
  cases vo with
  | none =>
    refine ⟨[], Lo, rfl, rfl, rfl, hp.symm, by simpa using h5⟩
  | some v =>
    cases Lo with
    | nil => simp at hp
    | cons r Lo =>
      simp only [Option.toList_some, List.cons_append, List.nil_append, List.map_cons, List.cons.injEq, List.map_nil] at hp h5
      exact ⟨[r], Lo, rfl, by simp [hp.1], by simp [h5.1], hp.2.symm, h5.2⟩

theorem Parts.len {vo : Option Nat} {cs : List Nat} {xs : List T} {Ns : List (Node w T)} {Lv Lc : List (Ref (Val w T))}
    (h : Parts vo cs xs Ns Lv Lc) : Lc.length = cs.length ∧ cs.length = Ns.length := by
  have h1 := congrArg List.length h.cptr
  have h2 := congrArg List.length h.cval
  simp only [List.length_map] at h1 h2
  omega

/-- reading a values array -/
theorem at_vals (h : Inv (sys E k) m O L) {p : Nat} {xs : List T} (ha : At (sys E k) m L p (.vals xs)) :
    ∃ c, m p = some c ∧ c.data = .vals ∧ c.els = xs.map .live ∧ p ∉ O := by
  obtain ⟨c, Lo, hc, _, hok, hO, _⟩ := h.kids ha
  obtain ⟨h1, h2, _⟩ := okD_vals hok
  exact ⟨c, hc, h1, h2, hO⟩

/-- reading a collision node -/
theorem at_coll (h : Inv (sys E k) m O L) {p : Nat} {xs : List T} (ha : At (sys E k) m L p (.node (.collision xs))) :
    ∃ c, m p = some c ∧ c.data = .coll xs.length ∧ c.els = xs.map .live ∧ p ∉ O := by
  obtain ⟨c, Lo, hc, _, hok, hO, _⟩ := h.kids ha
  obtain ⟨h1, h2, _⟩ := okD_coll hok
  exact ⟨c, hc, h1, h2, hO⟩

/-- reading an inner node -/
theorem at_inner (h : Inv (sys E k) m O L) {p : Nat} {nm dm : BitVec w} {xs : List T} {Ns : List (Node w T)}
    (ha : At (sys E k) m L p (.node (.inner nm dm xs Ns))) :
    ∃ c vo cs Lv Lc, m p = some c ∧ c.data = .inner ⟨nm, dm, vo, cs⟩ ∧ c.els = [] ∧ p ∉ O ∧ xs.length = popcount dm ∧
      Ns.length = popcount nm ∧ cs.length = popcount nm ∧ vo.isSome = !xs.isEmpty ∧ Parts vo cs xs Ns Lv Lc ∧
      (∀ x ∈ Lv ++ Lc, x.tok = 0 ∧ x.uniq = false ∧ At (sys E k) m L x.ptr x.val ∧ Held (sys E k) m L x.ptr) ∧
      (∀ v ∈ vo, At (sys E k) m L v (.vals xs)) := by
  obtain ⟨c, Lo, hc, ho, hok, hO, hLo⟩ := h.kids ha
  obtain ⟨vo, cs, hd, he, hi⟩ := okD_inner hok
  have ho' : vo.toList ++ cs = Lo.map Ref.ptr := by
    have : (sys E k).outs c.data = outsD c.data := rfl
    rw [this, hd] at ho
    exact ho
  obtain ⟨Lv, Lc, rfl, hp⟩ := parts hi ho'
  refine ⟨c, vo, cs, Lv, Lc, hc, hd, he, hO, hi.1, hi.2.1, hi.2.2.1, hi.2.2.2.1, hp, hLo, ?_⟩
  intro v hv
  cases vo with
  | none => cases hv
  | some v' =>
    cases hv
    have h1 := hp.vptr
    have h2 := hp.vval
    cases Lv with
    | nil => cases h1
    | cons r Lv =>
      simp only [Option.toList_some, List.map_cons, List.cons.injEq, List.map_nil] at h1 h2
      have := (hLo r (by simp)).2.2.1
      rwa [h1.1, h2.1] at this

end ChampHeap
