import Verif.ChampHeap.Sys
import Verif.Mem.Elems
import Verif.Champ.Ops

/-!
# What the node-building helpers of maps and sets do
-/

namespace ChampHeap
open Mm Champ

variable {w : Nat} {T : Type}

/-! ### Steps -/

section
variable {s : St (Dat w) T} {p : Nat} {c : Cell (Dat w) T} {i : Inner w}

theorem getI_eq (hc : s.mem p = some c) (hd : c.data = .inner i) : getI p s = .ok s i := by
  unfold getI; rw [bind_ok (cell_eq hc)]; simp only [hd]; rfl

theorem setI_eq {f : Inner w → Inner w} (hc : s.mem p = some c) (hd : c.data = .inner i) :
    setI p f s = .ok { s with mem := upd s.mem p (some { c with data := .inner (f i) }) } () := by
  unfold setI; rw [bind_ok (cell_eq hc)]; simp only [hd]; rw [modify_eq hc]

theorem collCount_eq {n : Nat} (hc : s.mem p = some c) (hd : c.data = .coll n) : collCount p s = .ok s n := by
  unfold collCount; rw [bind_ok (cell_eq hc)]; simp only [hd]; rfl

theorem liftO_eq {β : Type} {o : Option β} {b : β} (h : o = some b) : (liftO o : HM w T β) s = .ok s b := by rw [h]; rfl

theorem valuesPtr_eq {v : Nat} (hc : s.mem p = some c) (hd : c.data = .inner i) (hv : i.vals = some v) : valuesPtr p s = .ok s v := by
  unfold valuesPtr; rw [bind_ok (getI_eq hc hd)]; exact liftO_eq hv

theorem writeKids_eq {o : Nat} {ys : List Nat} (hc : s.mem p = some c) (hd : c.data = .inner i) (ho : o + ys.length ≤ i.cs.length) :
    writeKids p o ys s = .ok { s with mem := upd s.mem p (some { c with data := .inner { i with cs := i.cs.take o ++ ys ++ i.cs.drop (o + ys.length) } }) } () := by
  unfold writeKids; rw [bind_ok (getI_eq hc hd), if_pos ho, setI_eq hc hd]

end

theorem incs_incs {D T : Type} {gc : Bool} {m : Mem D T} {xs ys : List Nat} : incs gc (incs gc m xs) ys = incs gc m (xs ++ ys) := by
  unfold incs
  cases gc with
  | true => rfl
  | false => simp only [Bool.false_eq_true, if_false]; rw [List.foldl_append]

theorem incs_nil {D T : Type} {gc : Bool} {m : Mem D T} : incs gc m [] = m := by
  unfold incs; cases gc <;> rfl

theorem incs_upd {D T : Type} {gc : Bool} {m : Mem D T} {ps : List Nat} {a : Nat} {x : Option (Cell D T)} (ha : a ∉ ps) :
    incs gc (upd m a x) ps = upd (incs gc m ps) a x := by
  funext q
  by_cases hq : q = a
  · subst hq
    rw [upd_self]
    cases x with
    | none => exact incs_none upd_self
    | some c =>
      rw [incs_some upd_self, List.count_eq_zero.mpr ha]
      cases gc <;> rfl
  · rw [upd_ne hq]
    cases hm : m q with
    | none => rw [incs_none hm, incs_none (by rw [upd_ne hq]; exact hm)]
    | some c => rw [incs_some hm, incs_some (c := c) (by rw [upd_ne hq]; exact hm)]

theorem incs_notin {D T : Type} {gc : Bool} {m : Mem D T} {ps : List Nat} {a : Nat} (ha : a ∉ ps) : incs gc m ps a = m a := by
  cases hm : m a with
  | none => exact incs_none hm
  | some c =>
    rw [incs_some hm, List.count_eq_zero.mpr ha]
    cases gc <;> rfl

theorem incNodes_eq {E : Env (Dat w) T} : ∀ {ys : List Nat} {s : St (Dat w) T}, (∀ y ∈ ys, s.mem y ≠ none) →
    incNodes E ys s = .ok { s with mem := incs E.gc s.mem ys } ()
  | [], s, _ => by
    show Res.ok s () = _
    rw [incs_nil]
  | y :: ys, s, h => by
    obtain ⟨c, hc⟩ := Option.ne_none_iff_exists'.mp (h y List.mem_cons_self)
    show ((inc E y).bind fun _ => incNodes E ys) s = _
    rw [bind_ok (inc_eq hc), incNodes_eq (s := { s with mem := incs E.gc s.mem [y] })]
    · simp only [incs_incs]; rfl
    · intro z hz
      obtain ⟨c', hc'⟩ := Option.ne_none_iff_exists'.mp (h z (List.mem_cons_of_mem _ hz))
      show incs E.gc s.mem [y] z ≠ none
      rw [incs_some hc']; simp

/-! ### New inner nodes -/

variable {E : Env (Dat w) T} {k : Toks E.gc} {O : List Nat} {L : List (Ref (Val w T))}

/-- an inner node as `make_inner_n(n, nv)` returns it -/
def New (m m' : Mem (Dat w) T) (n nv p : Nat) (vo : Option Nat) : Prop :=
  m p = none ∧ ((vo = none ∧ nv = 0 ∧ m' = upd m p (some ⟨1, 0, [], .inner ⟨0#w, 0#w, none, List.replicate n 0⟩⟩)) ∨
    ∃ v, vo = some v ∧ nv ≠ 0 ∧ m v = none ∧ v ≠ p ∧
      m' = upd (upd m p (some ⟨1, 0, [], .inner ⟨0#w, 0#w, some v, List.replicate n 0⟩⟩)) v (some ⟨1, 0, List.replicate nv .raw, .vals⟩))

theorem finite_upd {m : Mem (Dat w) T} (hf : ∃ l : List Nat, ∀ p, m p ≠ none → p ∈ l) (a : Nat) (x : Option (Cell (Dat w) T)) :
    ∃ l : List Nat, ∀ p, upd m a x p ≠ none → p ∈ l := by
  obtain ⟨l, hl⟩ := hf
  refine ⟨a :: l, fun p hp => ?_⟩
  by_cases ha : p = a
  · subst ha; exact List.mem_cons_self
  · rw [upd_ne ha] at hp; exact List.mem_cons_of_mem _ (hl p hp)

theorem makeInnerNv_out (hE : E.Fresh) {s : St (Dat w) T} (hf : ∃ l : List Nat, ∀ p, s.mem p ≠ none → p ∈ l) (n nv : Nat) :
    Out (makeInnerNv E n nv s) (fun s' p => ∃ vo, New s.mem s'.mem n nv p vo) (fun s' => s'.mem = s.mem) := by
  unfold makeInnerNv makeInner
  refine out_bind (alloc_out hE hf) ?_
  rintro s1 p ⟨hp, _, h1, _⟩
  by_cases hn : nv = 0
  · rw [if_pos hn]
    exact ⟨none, hp, .inl ⟨rfl, hn, h1⟩⟩
  · rw [if_neg hn]
    refine out_bind (Q := fun s' v => s1.mem v = none ∧ s'.mem = upd s1.mem v (some ⟨1, 0, List.replicate nv .raw, .vals⟩)) (out_guard (E' := fun s' => s'.mem = s1.mem)
      (out_mono (alloc_out hE (by rw [h1]; exact finite_upd hf _ _)) (fun s v h => ⟨h.1, h.2.2.1⟩) (fun _ h => h)) ?_) ?_
    · intro s2 h2
      unfold deallocInner
      rw [dealloc_eq (c := ⟨1, 0, [], .inner ⟨0#w, 0#w, none, List.replicate n 0⟩⟩) (by rw [h2, h1]; exact upd_self) rfl (by simp [room])]
      show upd s2.mem p none = s.mem
      rw [h2, h1, upd_upd, upd_same hp]
    · rintro s2 v ⟨hv, h2⟩
      have hne : v ≠ p := by
        rintro rfl
        rw [h1, upd_self] at hv; cases hv
      have hc : s2.mem p = some ⟨1, 0, [], .inner ⟨0#w, 0#w, none, List.replicate n 0⟩⟩ := by
        rw [h2, upd_ne hne.symm, h1, upd_self]; rfl
      rw [bind_ok (setI_eq hc rfl)]
      refine ⟨some v, hp, .inr ⟨v, rfl, hn, ?_, hne, ?_⟩⟩
      · rw [h1, upd_ne hne] at hv; exact hv
      · show upd s2.mem p _ = _
        rw [h2, upd_comm hne, h1, upd_upd]

/-- an inner node with its values, before the children are filled in -/
structure Fresh (E : Env (Dat w) T) (k : Toks E.gc) (m m0 m' : Mem (Dat w) T) (O : List Nat) (L : List (Ref (Val w T))) (p : Nat) (vo : Option Nat)
    (nm dm : BitVec w) (n : Nat) (xs : List T) : Prop where
  inv : Inv (sys E k) m' (vo.toList ++ p :: O) L
  cell : m' p = some ⟨1, 0, [], .inner ⟨nm, dm, vo, List.replicate n 0⟩⟩
  vcell : ∀ v ∈ vo, m' v = some ⟨1, 0, xs.map .live, .vals⟩
  vsome : vo.isSome = !xs.isEmpty
  frame : ∀ q, q ≠ p → q ∉ vo → m' q = m0 q
  new : m p = none ∧ ∀ v ∈ vo, m v = none ∧ v ≠ p

/-- a change to an open node -/
def poke (Y : Option (Nat × Cell (Dat w) T)) (m : Mem (Dat w) T) : Mem (Dat w) T :=
  match Y with
  | some y => upd m y.1 (some y.2)
  | none => m

theorem poke_inv {m : Mem (Dat w) T} {Y : Option (Nat × Cell (Dat w) T)} (h : Inv (sys E k) m O L) (hY : ∀ y ∈ Y, y.1 ∈ O) :
    Inv (sys E k) (poke Y m) O L := by
  cases Y with
  | none => exact h
  | some y => exact h.write (hY y rfl) _

theorem poke_ne {m : Mem (Dat w) T} {Y : Option (Nat × Cell (Dat w) T)} {q : Nat} (h : ∀ y ∈ Y, q ≠ y.1) : poke Y m q = m q := by
  cases Y with
  | none => rfl
  | some y => exact upd_ne (h y rfl)

theorem poke_congr {m m' : Mem (Dat w) T} {Y : Option (Nat × Cell (Dat w) T)} {q : Nat} (h : m q = m' q) : poke Y m q = poke Y m' q := by
  cases Y with
  | none => exact h
  | some y =>
    show upd m _ _ _ = upd m' _ _ _
    by_cases hq : q = y.1
    · subst hq; rw [upd_self, upd_self]
    · rw [upd_ne hq, upd_ne hq]; exact h

theorem buildInner_out (hE : E.Fresh) {s : St (Dat w) T} (h : Inv (sys E k) s.mem O L) {n nv : Nat} {nm dm : BitVec w} {fill : Nat → HM w T Unit}
    {xs : List T} (hx : xs.length = nv) {Y : Option (Nat × Cell (Dat w) T)} (hY : ∀ y ∈ Y, y.1 ∈ O ∧ nv ≠ 0)
    (hfill : nv ≠ 0 → ∀ p v s1, s.mem p = none → s.mem v = none → Inv (sys E k) s1.mem (v :: p :: O) L → s1.mem v = some ⟨1, 0, List.replicate nv .raw, .vals⟩ →
      (∀ q, q ≠ v → q ≠ p → s1.mem q = s.mem q) →
      Out (fill v s1) (fun s2 _ => s2.mem = upd (poke Y s1.mem) v (some ⟨1, 0, xs.map .live, .vals⟩)) (fun s2 => s2.mem = s1.mem)) :
    Out (buildInner E n nv nm dm fill s) (fun s' p => ∃ vo, Fresh E k s.mem (poke Y s.mem) s'.mem O L p vo nm dm n xs) (fun s' => s'.mem = s.mem) := by
  unfold buildInner
  refine out_bind (makeInnerNv_out hE h.finite n nv) ?_
  rintro s1 p ⟨vo, hp, hvo⟩
  rcases hvo with ⟨rfl, hn, h1⟩ | ⟨v, rfl, hn, hv, hvp, h1⟩
  · rw [bind_ok (setI_eq (s := s1) (by rw [h1]; exact upd_self) rfl), if_pos hn]
    have hx0 : xs = [] := List.length_eq_zero_iff.mp (hx.trans hn)
    have hY0 : Y = none := by
      cases Y with
      | none => rfl
      | some y => exact absurd hn (hY y rfl).2
    subst hY0 hx0
    refine ⟨none, ?_⟩
    have e : upd s1.mem p (some ⟨1, 0, [], .inner ⟨nm, dm, none, List.replicate n 0⟩⟩) = upd s.mem p (some ⟨1, 0, [], .inner ⟨nm, dm, none, List.replicate n 0⟩⟩) := by
      rw [h1, upd_upd]
    refine ⟨?_, ?_, ?_, rfl, ?_, hp, ?_⟩
    · show Inv _ (upd s1.mem p _) _ _
      rw [e]; exact h.alloc hp _
    · exact upd_self
    · intro v hv; cases hv
    · intro q hq _
      show upd s1.mem p _ q = s.mem q
      rw [e, upd_ne hq]
    · intro v hv; cases hv
  · have hc : s1.mem p = some ⟨1, 0, [], .inner ⟨0#w, 0#w, some v, List.replicate n 0⟩⟩ := by rw [h1, upd_ne hvp.symm, upd_self]
    rw [bind_ok (setI_eq hc rfl), if_neg hn]
    have e : upd s1.mem p (some ⟨1, 0, [], .inner ⟨nm, dm, some v, List.replicate n 0⟩⟩) = upd (upd s.mem p (some ⟨1, 0, [], .inner ⟨nm, dm, some v, List.replicate n 0⟩⟩)) v
        (some ⟨1, 0, List.replicate nv .raw, .vals⟩) := by
      rw [h1, upd_comm hvp, upd_upd]
    have hvO : v ∉ O := h.fresh_notin hv
    have hpO : p ∉ O := h.fresh_notin hp
    have hinv : Inv (sys E k) (upd s1.mem p (some ⟨1, 0, [], .inner ⟨nm, dm, some v, List.replicate n 0⟩⟩)) (v :: p :: O) L := by
      rw [e]
      exact (h.alloc hp _).alloc (by rw [upd_ne hvp]; exact hv) _
    have hcell : upd s1.mem p (some ⟨1, 0, [], .inner ⟨nm, dm, some v, List.replicate n 0⟩⟩) v = some ⟨1, 0, List.replicate nv .raw, .vals⟩ := by
      rw [e, upd_self]
    refine out_bind (Q := fun s2 _ => s2.mem = upd (poke Y (upd s1.mem p (some ⟨1, 0, [], .inner ⟨nm, dm, some v, List.replicate n 0⟩⟩))) v (some ⟨1, 0, xs.map .live, .vals⟩))
      (out_guard (E' := fun s2 => s2.mem = upd s1.mem p (some ⟨1, 0, [], .inner ⟨nm, dm, some v, List.replicate n 0⟩⟩)) ?_ ?_) ?_
    · rw [bind_ok (valuesPtr_eq (s := { s1 with mem := _ }) upd_self rfl rfl)]
      refine hfill hn p v _ hp hv hinv hcell ?_
      intro q h1 h2
      show upd s1.mem p _ q = _
      rw [e, upd_ne h1, upd_ne h2]
    · intro s2 h2
      have hcp : s2.mem p = some ⟨1, 0, [], .inner ⟨nm, dm, some v, List.replicate n 0⟩⟩ := by rw [h2]; exact upd_self
      unfold deallocInnerV
      rw [bind_ok (valuesPtr_eq hcp rfl rfl)]
      unfold deallocEls deallocInner
      rw [bind_ok (dealloc_eq (room := room) (p := v) (n := nv) (k := 0) (c := ⟨1, 0, List.replicate nv .raw, Dat.vals⟩) (by rw [h2]; exact hcell) rfl rfl)]
      rw [dealloc_eq (s := { s2 with mem := upd s2.mem v none }) (c := ⟨1, 0, [], .inner ⟨nm, dm, some v, List.replicate n 0⟩⟩) (by
        show upd s2.mem v none p = _
        rw [upd_ne hvp.symm]; exact hcp) rfl (by simp [room])]
      show upd (upd s2.mem v none) p none = s.mem
      rw [h2, e, upd_upd, upd_comm hvp, upd_upd, upd_same hp, upd_same hv]
    · intro s2 _ h2
      have hYv : ∀ y ∈ Y, v ≠ y.1 := fun y hy he => hvO (he ▸ (hY y hy).1)
      have hYp : ∀ y ∈ Y, p ≠ y.1 := fun y hy he => hpO (he ▸ (hY y hy).1)
      refine ⟨some v, ?_, ?_, ?_, ?_, ?_, hp, ?_⟩
      · rw [h2]
        exact (poke_inv hinv fun y hy => List.mem_cons_of_mem _ (List.mem_cons_of_mem _ (hY y hy).1)).write List.mem_cons_self _
      · rw [h2, upd_ne hvp.symm, poke_ne hYp, upd_self]
      · intro v' hv'
        cases hv'
        rw [h2, upd_self]
      · cases xs with
        | nil => exact absurd hx.symm hn
        | cons => rfl
      · intro q hq hqv
        have hqv : q ≠ v := fun he => hqv (by rw [he]; rfl)
        rw [h2, upd_ne hqv]
        refine poke_congr ?_
        rw [e, upd_ne hqv, upd_ne hq]
      · intro v' hv'
        cases hv'
        exact ⟨hv, hvp⟩

/-! ### Values -/

section
variable {src sv dv : Nat} {s : St (Dat w) T} {c cv : Cell (Dat w) T} {i : Inner w} {xs : List T} {nv off : Nat}

theorem drop_get {xs : List T} {j o : Nat} {n : Nat} (hn : o + n ≤ xs.length) (hj : j < n) : (xs.map Slot.live)[o + j]? = (((xs.drop o).take n)[j]?).map Slot.live := by
  rw [List.getElem?_map, List.getElem?_take, if_pos hj, List.getElem?_drop]

theorem replicate_split {α : Type} {a b n : Nat} (h : a + b = n) (x : α) : List.replicate n x = List.replicate a x ++ List.replicate b x := by
  rw [← h, List.replicate_add]

/-- copies of all but one of the values -/
theorem fillRemove_out (hc : s.mem src = some c) (hd : c.data = .inner i) (hv : i.vals = some sv) (hcv : s.mem sv = some cv)
    (hels : cv.els = xs.map .live) (hx : xs.length = nv) (ho : off < nv) (hne : sv ≠ dv)
    (hdv : s.mem dv = some ⟨1, 0, List.replicate (nv - 1) .raw, .vals⟩) :
    Out (fillRemove false src off nv dv s) (fun s' _ => s'.mem = upd s.mem dv (some ⟨1, 0, (xs.take off ++ xs.drop (off + 1)).map .live, .vals⟩))
      (fun s' => s'.mem = s.mem) := by
  unfold fillRemove
  rw [bind_ok (valuesPtr_eq hc hd hv)]
  unfold transfer
  simp only [Bool.false_eq_true, if_false]
  refine out_bind (out_mono (uninitCopy_out hne hdv (pre := []) (post := List.replicate (nv - (off + 1)) .raw) rfl hcv (ys := xs.take off) (by
    rw [List.length_take]; omega) ?_ ?_) (fun _ _ h => h.1) (fun _ h => h.1)) ?_
  · intro j hj
    rw [hels, drop_get (n := off) (by omega) hj, List.drop_zero]
  · rw [List.nil_append]; exact replicate_split (by omega) _
  · intro s1 _ h1
    have hcv1 : s1.mem sv = some cv := by rw [h1, upd_ne hne]; exact hcv
    refine out_guard (Q := fun s' _ => s'.mem = upd s.mem dv (some ⟨1, 0, (xs.take off ++ xs.drop (off + 1)).map .live, .vals⟩))
      (E' := fun s' => s'.mem = s1.mem) (out_mono (uninitCopy_out hne (cd := ⟨1, 0, [] ++ (xs.take off).map .live ++ List.replicate (nv - (off + 1)) .raw, .vals⟩)
      (by rw [h1, upd_self]) (pre := (xs.take off).map .live) (post := []) (by rw [List.length_map, List.length_take]; omega) hcv1
      (ys := xs.drop (off + 1)) (by rw [List.length_drop]; omega) ?_ (by simp)) ?_ (fun _ h => h.1)) ?_
    · intro j hj
      rw [hels, drop_get (n := nv - (off + 1)) (by omega) hj, List.take_of_length_le (by rw [List.length_drop]; omega)]
    · intro s2 _ h2
      rw [h2.1, h1, upd_upd]
      simp
    · intro s2 h2
      rw [destroyN_eq ((xs.take off).map .live) [] (List.replicate (nv - (off + 1)) .raw) 0 off s2 ⟨1, 0, [] ++ (xs.take off).map .live ++ List.replicate (nv - (off + 1)) .raw, .vals⟩
        (by rw [h2, h1, upd_self]) rfl rfl (by rw [List.length_map, List.length_take]; omega) (by
          intro x hx
          obtain ⟨y, _, rfl⟩ := List.mem_map.mp hx
          rfl)]
      show upd s2.mem dv _ = s.mem
      rw [h2, h1, upd_upd]
      refine upd_same ?_
      have e : off + (nv - (off + 1)) = nv - 1 := by omega
      rw [hdv]
      simp only [List.nil_append]
      rw [← replicate_split e]

/-- the values moved, except for one that stays -/
theorem fillRemove_move (hc : s.mem src = some c) (hd : c.data = .inner i) (hv : i.vals = some sv) (hcv : s.mem sv = some cv) {z : Slot T}
    (hels : cv.els = (xs.take off).map .live ++ z :: (xs.drop (off + 1)).map .live) (hx : xs.length = nv) (hlt : off < nv) (hne : sv ≠ dv)
    (hdv : s.mem dv = some ⟨1, 0, List.replicate (nv - 1) .raw, .vals⟩) :
    ∃ s', fillRemove true src off nv dv s = .ok s' () ∧
      s'.mem = upd (upd s.mem sv (some { cv with els := List.replicate off .moved ++ z :: List.replicate (nv - (off + 1)) .moved })) dv
        (some ⟨1, 0, (xs.take off ++ xs.drop (off + 1)).map .live, .vals⟩) := by
  unfold fillRemove
  rw [bind_ok (valuesPtr_eq hc hd hv)]
  unfold transfer
  simp only [if_true]
  rw [bind_ok (uninitMove_eq hne (xs.take off) 0 off 0 [] (z :: (xs.drop (off + 1)).map .live) [] (List.replicate (nv - (off + 1)) .raw) s cv _ hcv hdv
    (by rw [List.length_take]; omega) rfl rfl (by rw [hels]; simp) (by rw [List.nil_append]; exact replicate_split (by omega) _))]
  rw [guard_ok (uninitMove_eq hne (xs.drop (off + 1)) (off + 1) (nv - (off + 1)) off (List.replicate off .moved ++ [z]) []
    ((xs.take off).map .live) [] _ { cv with els := [] ++ List.replicate off .moved ++ (z :: (xs.drop (off + 1)).map .live) }
    ⟨1, 0, [] ++ (xs.take off).map .live ++ List.replicate (nv - (off + 1)) .raw, .vals⟩ (by show upd (upd _ _ _) _ _ _ = _; rw [upd_ne hne, upd_self])
    upd_self (by rw [List.length_drop]; omega) (by simp) (by rw [List.length_map, List.length_take]; omega) (by simp) (by simp))]
  refine ⟨_, rfl, ?_⟩
  show upd (upd (upd (upd s.mem sv _) dv _) sv _) dv _ = _
  rw [upd_comm hne.symm, upd_upd, upd_upd]
  simp

/-- copies of the values with one more -/
theorem fillInsert_out {v : T} (hc : s.mem src = some c) (hd : c.data = .inner i) (hvs : i.vals.isSome = !xs.isEmpty)
    (hcv : ∀ sv ∈ i.vals, ∃ cv, s.mem sv = some cv ∧ cv.els = xs.map .live ∧ sv ≠ dv)
    (hx : xs.length = nv) (ho : off ≤ nv)
    (hdv : s.mem dv = some ⟨1, 0, List.replicate (nv + 1) .raw, .vals⟩) :
    Out (fillInsert false src off nv v dv s) (fun s' _ => s'.mem = upd s.mem dv (some ⟨1, 0, (xs.take off ++ v :: xs.drop off).map .live, .vals⟩))
      (fun s' => s'.mem = s.mem) := by
  unfold fillInsert
  by_cases hn : nv = 0
  · rw [if_pos hn]
    have hx0 : xs = [] := List.length_eq_zero_iff.mp (hx.trans hn)
    subst hx0 hn
    have ho0 : off = 0 := by omega
    subst ho0
    rw [construct_eq hdv (by rfl)]
    rfl
  · rw [if_neg hn]
    have hvs' : ∃ sv, i.vals = some sv := by
      cases xs with
      | nil => exact absurd hx.symm hn
      | cons => exact Option.isSome_iff_exists.mp hvs
    obtain ⟨sv, hv⟩ := hvs'
    obtain ⟨cv, hcv, hels, hne⟩ := hcv sv hv
    rw [bind_ok (valuesPtr_eq hc hd hv)]
    unfold transfer
    simp only [Bool.false_eq_true, if_false]
    refine out_bind (out_mono (uninitCopy_out hne hdv (pre := []) (post := List.replicate (nv + 1 - off) .raw) rfl hcv (ys := xs.take off) (by
      rw [List.length_take]; omega) ?_ ?_) (fun _ _ h => h.1) (fun _ h => h.1)) ?_
    · intro j hj
      rw [hels, drop_get (n := off) (by omega) hj, List.drop_zero]
    · rw [List.nil_append]; exact replicate_split (by omega) _
    · intro s1 _ h1
      have hd1 : s1.mem dv = some ⟨1, 0, (xs.take off).map .live ++ .raw :: List.replicate (nv - off) .raw, .vals⟩ := by
        rw [h1, upd_self]
        simp only [List.nil_append]
        rw [show nv + 1 - off = (nv - off) + 1 by omega, List.replicate_succ]
      have hl : off = ((xs.take off).map Slot.live).length := by rw [List.length_map, List.length_take]; omega
      refine out_guard (E' := fun s' => s'.mem = s1.mem) ?_ ?_ (Q := fun s' _ => s'.mem = upd s.mem dv (some ⟨1, 0, (xs.take off ++ v :: xs.drop off).map .live, .vals⟩))
      · rw [bind_ok (construct_eq hd1 (get_mid _ _ _ _ hl))]
        simp only
        rw [set_mid _ _ _ _ _ hl]
        refine out_guard (E' := fun s' => s'.mem = upd s1.mem dv (some ⟨1, 0, (xs.take off).map .live ++ .live v :: List.replicate (nv - off) .raw, .vals⟩))
          (out_mono (uninitCopy_out hne (cs := cv) (s := { s1 with mem := upd s1.mem dv (some ⟨1, 0, (xs.take off).map .live ++ .live v :: List.replicate (nv - off) .raw, .vals⟩) })
            (cd := ⟨1, 0, (xs.take off).map .live ++ .live v :: List.replicate (nv - off) .raw, .vals⟩) upd_self (pre := (xs.take off).map .live ++ [.live v]) (post := []) (by
            rw [List.length_append, ← hl]; rfl) (by
              show upd s1.mem dv _ sv = _
              rw [upd_ne hne, h1, upd_ne hne]; exact hcv) (ys := xs.drop off) (by rw [List.length_drop]; omega) ?_ (by simp)) ?_ (fun _ h => h.1)) ?_
        · intro j hj
          rw [hels, drop_get (n := nv - off) (by omega) hj, List.take_of_length_le (by rw [List.length_drop]; omega)]
        · intro s2 _ h2
          rw [h2.1]
          show upd (upd s1.mem dv _) dv _ = _
          rw [h1, upd_upd, upd_upd]
          simp
        · intro s2 h2
          rw [destroy1_eq (x := .live v) (by rw [h2, upd_self]) (get_mid _ _ _ _ hl) rfl]
          show upd s2.mem dv _ = _
          rw [h2, upd_upd]
          simp only
          rw [set_mid _ _ _ _ _ hl]
          exact upd_same hd1
      · intro s2 h2
        rw [destroyN_eq ((xs.take off).map .live) [] (.raw :: List.replicate (nv - off) .raw) 0 off s2 _ (by rw [h2]; exact hd1) rfl rfl hl (by
            intro x hx
            obtain ⟨y, _, rfl⟩ := List.mem_map.mp hx
            rfl)]
        show upd s2.mem dv _ = s.mem
        rw [h2, h1, upd_upd]
        refine upd_same ?_
        have e : nv + 1 = off + (nv - off + 1) := by omega
        rw [hdv, List.nil_append, ← List.replicate_succ]
        simp only
        rw [← replicate_split e.symm]

/-- the values moved, with one more -/
theorem fillInsert_move {v : T} (hc : s.mem src = some c) (hd : c.data = .inner i) (hv : i.vals = some sv) (hcv : s.mem sv = some cv)
    (hels : cv.els = xs.map .live) (hx : xs.length = nv) (hn : nv ≠ 0) (ho : off ≤ nv) (hne : sv ≠ dv)
    (hdv : s.mem dv = some ⟨1, 0, List.replicate (nv + 1) .raw, .vals⟩) :
    ∃ s', fillInsert true src off nv v dv s = .ok s' () ∧
      s'.mem = upd (upd s.mem sv (some { cv with els := List.replicate nv .moved })) dv
        (some ⟨1, 0, (xs.take off ++ v :: xs.drop off).map .live, .vals⟩) := by
  unfold fillInsert
  rw [if_neg hn, bind_ok (valuesPtr_eq hc hd hv)]
  unfold transfer
  simp only [if_true]
  have hl : off = ((xs.take off).map Slot.live).length := by rw [List.length_map, List.length_take]; omega
  rw [bind_ok (uninitMove_eq hne (xs.take off) 0 off 0 [] ((xs.drop off).map .live) [] (List.replicate (nv + 1 - off) .raw) s cv _ hcv hdv
    (by rw [List.length_take]; omega) rfl rfl (by rw [hels, List.nil_append, ← List.map_append, List.take_append_drop])
    (by rw [List.nil_append]; exact replicate_split (by omega) _))]
  simp only [List.nil_append]
  have hraw : List.replicate (nv + 1 - off) (Slot.raw (T := T)) = .raw :: List.replicate (nv - off) .raw := by
    rw [show nv + 1 - off = (nv - off) + 1 by omega, List.replicate_succ]
  rw [hraw]
  have hcon := construct_eq (s := St.mk (upd (upd s.mem sv (some { cv with els := List.replicate off .moved ++ (xs.drop off).map .live })) dv
    (some ⟨1, 0, (xs.take off).map .live ++ .raw :: List.replicate (nv - off) .raw, Dat.vals⟩)) s.clock s.fault) (v := v) upd_self (get_mid _ _ _ _ hl)
  simp only at hcon
  rw [set_mid _ _ _ _ _ hl, upd_upd] at hcon
  have hmv := uninitMove_eq (D := Dat w) hne (xs.drop off) off (nv - off) (off + 1) (List.replicate off .moved) [] ((xs.take off).map .live ++ [.live v]) []
    (St.mk (upd (upd s.mem sv (some { cv with els := List.replicate off .moved ++ (xs.drop off).map .live })) dv
      (some ⟨1, 0, (xs.take off).map .live ++ .live v :: List.replicate (nv - off) .raw, Dat.vals⟩)) s.clock s.fault)
    { cv with els := List.replicate off .moved ++ (xs.drop off).map .live } ⟨1, 0, (xs.take off).map .live ++ .live v :: List.replicate (nv - off) .raw, .vals⟩
    (by show upd (upd _ _ _) _ _ _ = _; rw [upd_ne hne, upd_self]) upd_self (by rw [List.length_drop]; omega) (by simp) (by rw [List.length_append, ← hl]; rfl)
    (by simp) (by simp)
  rw [guard_ok ((bind_ok hcon).trans (guard_ok hmv))]
  refine ⟨_, rfl, ?_⟩
  show upd (upd (upd (upd s.mem sv _) dv _) sv _) dv _ = _
  rw [upd_comm hne.symm, upd_upd, upd_upd]
  have : List.replicate off (Slot.moved (T := T)) ++ List.replicate (nv - off) .moved = List.replicate nv .moved := (replicate_split (by omega) _).symm
  simp [this]

end

end ChampHeap
