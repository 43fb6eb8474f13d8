import Verif.Champ.Diff
import Verif.Champ.EqProps

/-!
# C06: `diff` reports exactly the difference
-/

namespace Champ

variable {K T P : Type} {c : Cfg K T} {eq : T → T → Bool}

/-! ## helper lemmas -/

/-- contribution of an old element -/
def evOld (c : Cfg K T) (eq : T → T → Bool) (lb : List T) (x : T) : List (Event T) :=
  match look c lb (c.key x) with
  | none => [.removed x]
  | some y => if eq x y then [] else [.changed x y]

/-- contribution of a new element -/
def evNew (c : Cfg K T) (la : List T) (y : T) : List (Event T) :=
  match look c la (c.key y) with
  | none => [.added y]
  | some _ => []

def diffSpec (c : Cfg K T) (eq : T → T → Bool) (la lb : List T) : List (Event T) :=
  la.flatMap (evOld c eq lb) ++ lb.flatMap (evNew c la)

theorem look_self (hc : c.Lawful) {l : List T}
    (hp : l.Pairwise (fun a b => c.eqv (c.key a) (c.key b) = false)) {x : T} (hx : x ∈ l) :
    look c l (c.key x) = some x := by
  rw [look_some_iff hc hp]; exact ⟨hx, hc.refl _⟩

theorem diffSpec_self (hc : c.Lawful) (hr : ∀ x, eq x x = true) {l : List T}
    (hp : l.Pairwise (fun a b => c.eqv (c.key a) (c.key b) = false)) : diffSpec c eq l l = [] := by
  rw [diffSpec, List.append_eq_nil_iff, List.flatMap_eq_nil_iff, List.flatMap_eq_nil_iff]
  constructor
  · intro x hx; simp [evOld, look_self hc hp hx, hr]
  · intro x hx; simp [evNew, look_self hc hp hx]

theorem diffSpec_nil_left (lb : List T) : diffSpec c eq [] lb = lb.map Event.added := by
  simp only [diffSpec, List.flatMap_nil, List.nil_append]
  induction lb with
  | nil => rfl
  | cons y l ih => simp [evNew, look, List.flatMap_cons, ← ih]

theorem diffSpec_nil_right (la : List T) : diffSpec c eq la [] = la.map Event.removed := by
  simp only [diffSpec, List.flatMap_nil, List.append_nil]
  induction la with
  | nil => rfl
  | cons y l ih => simp [evOld, look, List.flatMap_cons, ← ih]

theorem eqv_comm (hc : c.Lawful) (a b : K) : c.eqv a b = c.eqv b a := by
  rw [Bool.eq_iff_iff]; exact ⟨hc.symm _ _, hc.symm _ _⟩

theorem diffCollisions_eq (hc : c.Lawful) (a b : List T) : diffCollisions c eq a b = diffSpec c eq a b := by
  have h1 : ∀ x, b.find? (fun y => c.eqv (c.key x) (c.key y)) = look c b (c.key x) := by
    intro x; rw [look]; congr 1; funext y; exact eqv_comm hc _ _
  have h2 : ∀ y, a.find? (fun x => c.eqv (c.key x) (c.key y)) = look c a (c.key y) := fun y => rfl
  rw [diffCollisions, diffSpec]
  congr 2
  · funext x; rw [h1, evOld]
    cases look c b (c.key x) with
    | none => rfl
    | some y => cases h : eq x y <;> simp [h]
  · funext y; rw [h2, evNew]
    cases look c a (c.key y) <;> rfl

theorem diffDataNode_fold (x : T) (l : List T) (st : Bool × List (Event T)) :
    l.foldl (diffDataNodeStep c eq x) st = (st.1 || l.any (fun y => c.eqv (c.key x) (c.key y)),
      st.2 ++ l.flatMap (fun y => if c.eqv (c.key x) (c.key y) then
        (if eq x y then [] else [.changed x y]) else [.added y])) := by
  induction l generalizing st with
  | nil => simp
  | cons y l ih =>
    rw [List.foldl_cons, ih, diffDataNodeStep]
    by_cases h : c.eqv (c.key x) (c.key y) = true
    · simp only [h, if_true, List.any_cons, List.flatMap_cons, Bool.true_or, Bool.or_true,
        List.append_assoc]
      cases eq x y <;> simp
    · simp only [h, List.any_cons, List.flatMap_cons, List.append_assoc]
      simp

theorem diffNodeData_fold (y : T) (l : List T) (st : Bool × List (Event T)) :
    l.foldl (diffNodeDataStep c eq y) st = (st.1 || l.any (fun x => c.eqv (c.key x) (c.key y)),
      st.2 ++ l.flatMap (fun x => if c.eqv (c.key x) (c.key y) then
        (if eq x y then [] else [.changed x y]) else [.removed x])) := by
  induction l generalizing st with
  | nil => simp
  | cons x l ih =>
    rw [List.foldl_cons, ih, diffNodeDataStep]
    by_cases h : c.eqv (c.key x) (c.key y) = true
    · simp only [h, if_true, List.any_cons, List.flatMap_cons, Bool.true_or, Bool.or_true,
        List.append_assoc]
      cases eq x y <;> simp
    · simp only [h, List.any_cons, List.flatMap_cons, List.append_assoc]
      simp

theorem diffDataNode_perm (hc : c.Lawful) (x : T) (xss : List (List T))
    (hp : xss.flatten.Pairwise (fun a b => c.eqv (c.key a) (c.key b) = false)) :
    (diffDataNode c eq x xss).Perm (diffSpec c eq [x] xss.flatten) := by
  rw [diffDataNode, ← List.foldl_flatten, diffDataNode_fold]
  simp only [Bool.false_or, List.nil_append]
  generalize xss.flatten = l at hp
  have hg : evNew c [x] = fun y => if c.eqv (c.key x) (c.key y) then [] else [.added y] := by
    funext y
    rw [evNew, look_single]
    by_cases h : c.eqv (c.key x) (c.key y) = true <;> simp [h]
  rw [diffSpec, hg, List.flatMap_cons, List.flatMap_nil, List.append_nil]
  have key : ∀ l : List T, l.Pairwise (fun a b => c.eqv (c.key a) (c.key b) = false) →
      ((l.flatMap (fun y => if c.eqv (c.key x) (c.key y) then
        (if eq x y then [] else [Event.changed x y]) else [.added y])) ++
        (if l.any (fun y => c.eqv (c.key x) (c.key y)) then [] else [Event.removed x])).Perm
      (evOld c eq l x ++ l.flatMap (fun y => if c.eqv (c.key x) (c.key y) then [] else [Event.added y])) := by
    intro l hl
    induction l with
    | nil => simp [evOld, look]
    | cons y l ih =>
      rw [List.pairwise_cons] at hl
      have ih := ih hl.2
      by_cases h : c.eqv (c.key x) (c.key y) = true
      · have hno : ∀ z ∈ l, c.eqv (c.key x) (c.key z) = false := by
          intro z hz
          by_contra hne
          have h2 : c.eqv (c.key x) (c.key z) = true := by simpa using hne
          have := hl.1 z hz
          rw [hc.trans _ _ _ (hc.symm _ _ h) h2] at this
          simp at this
        have e1 : l.flatMap (fun y => if c.eqv (c.key x) (c.key y) then
            (if eq x y then [] else [Event.changed x y]) else [.added y]) =
            l.flatMap (fun y => if c.eqv (c.key x) (c.key y) then [] else [.added y]) := by
          apply List.flatMap_congr
          intro z hz; simp [hno z hz]
        have e2 : evOld c eq (y :: l) x = if eq x y then [] else [.changed x y] := by
          have := hc.symm _ _ h
          simp only [evOld, look, List.find?_cons, this]
        rw [List.flatMap_cons, List.flatMap_cons, e1, e2]
        simp [h]
      · have h' : c.eqv (c.key x) (c.key y) = false := by simpa using h
        have e2 : evOld c eq (y :: l) x = evOld c eq l x := by
          rw [evOld, evOld, look, look, List.find?_cons_of_neg]
          rw [eqv_comm hc]; exact h
        rw [List.flatMap_cons, List.flatMap_cons, e2]
        simp only [h', List.any_cons, Bool.false_or]
        simp only [Bool.false_eq_true, if_false, List.singleton_append, List.cons_append]
        exact (List.Perm.cons _ ih).trans List.perm_middle.symm
  have := key l hp
  cases h : l.any (fun y => c.eqv (c.key x) (c.key y)) <;> simp [h] at this ⊢ <;> exact this

theorem diffNodeData_perm (hc : c.Lawful) (y : T) (xss : List (List T))
    (hp : xss.flatten.Pairwise (fun a b => c.eqv (c.key a) (c.key b) = false)) :
    (diffNodeData c eq y xss).Perm (diffSpec c eq xss.flatten [y]) := by
  rw [diffNodeData, ← List.foldl_flatten, diffNodeData_fold]
  simp only [Bool.false_or, List.nil_append]
  generalize xss.flatten = l at hp
  have hg : evOld c eq [y] = fun x => if c.eqv (c.key x) (c.key y) then
      (if eq x y then [] else [.changed x y]) else [.removed x] := by
    funext x
    rw [evOld, look_single, eqv_comm hc]
    by_cases h : c.eqv (c.key x) (c.key y) = true <;> simp [h]
  rw [diffSpec, hg, List.flatMap_cons, List.flatMap_nil, List.append_nil, evNew]
  have : (look c l (c.key y)).isSome = l.any (fun x => c.eqv (c.key x) (c.key y)) := find_of_hasKey
  cases h : look c l (c.key y) with
  | none => rw [h] at this; simp [← this]
  | some z => rw [h] at this; simp [← this]

theorem diffDataData_perm (hc : c.Lawful) (x y : T) :
    (diffDataData c eq x y).Perm (diffSpec c eq [x] [y]) := by
  rw [diffDataData, diffSpec]
  simp only [List.flatMap_cons, List.flatMap_nil, List.append_nil, evOld, evNew, look_single]
  rw [eqv_comm hc (c.key y) (c.key x)]
  by_cases h : c.eqv (c.key x) (c.key y) = true
  · cases h2 : eq x y <;> simp [h, h2]
  · simp [h]

theorem diffSpec_slots (hc : c.Lawful) {d shift p : Nat} {nm dm nm' dm' : BitVec c.W}
    {vs vs' : List T} {cs cs' : List c.N} (hp : p < 2 ^ shift)
    (h : WF c (d + 1) shift p (.inner nm dm vs cs))
    (h' : WF c (d + 1) shift p (.inner nm' dm' vs' cs')) :
    List.Perm ((List.range c.W).flatMap (fun i =>
        diffSpec c eq (slot c d nm dm vs cs i) (slot c d nm' dm' vs' cs' i)))
      (diffSpec c eq (elems c (d + 1) (.inner nm dm vs cs)) (elems c (d + 1) (.inner nm' dm' vs' cs'))) := by
  have hk : ∀ i k, (c.hash k).toNat % 2 ^ (shift + c.B) = p + i * 2 ^ shift →
      (c.hash k).toNat % 2 ^ shift = p ∧ c.idx (c.hash k) shift = i := by
    intro i k hk
    have hk1 : (c.hash k).toNat % 2 ^ shift = p := by
      rw [mod_of_mod_add hk, Nat.add_mul_mod_self_right, Nat.mod_eq_of_lt hp]
    refine ⟨hk1, ?_⟩
    rw [mod_idx c hk1] at hk; exact slot_inj hk
  have e1 : ∀ i, ∀ x ∈ slot c d nm dm vs cs i,
      evOld c eq (slot c d nm' dm' vs' cs' i) x =
        evOld c eq (elems c (d + 1) (.inner nm' dm' vs' cs')) x := by
    intro i x hx
    obtain ⟨h1, h2⟩ := hk i _ (h.slot_hash hp hx)
    have h3 := find_slot hc h' hp h1
    rw [h2] at h3
    simp only [evOld, look, h3]
  have e2 : ∀ i, ∀ x ∈ slot c d nm' dm' vs' cs' i,
      evNew c (slot c d nm dm vs cs i) x = evNew c (elems c (d + 1) (.inner nm dm vs cs)) x := by
    intro i x hx
    obtain ⟨h1, h2⟩ := hk i _ (h'.slot_hash hp hx)
    have h3 := find_slot hc h hp h1
    rw [h2] at h3
    simp only [evNew, look, h3]
  have f1 : ∀ i, diffSpec c eq (slot c d nm dm vs cs i) (slot c d nm' dm' vs' cs' i) =
      (slot c d nm dm vs cs i).flatMap (evOld c eq (elems c (d + 1) (.inner nm' dm' vs' cs'))) ++
      (slot c d nm' dm' vs' cs' i).flatMap (evNew c (elems c (d + 1) (.inner nm dm vs cs))) := by
    intro i
    rw [diffSpec, List.flatMap_congr (e1 i), List.flatMap_congr (e2 i)]
  simp only [f1]
  refine (List.flatMap_append_perm _ _ _).symm.trans ?_
  rw [diffSpec]
  apply List.Perm.append
  · rw [← List.flatMap_assoc]
    exact (elems_perm_slots h.2.1 h.2.2.1).symm.flatMap_right _
  · rw [← List.flatMap_assoc]
    exact (elems_perm_slots h'.2.1 h'.2.2.1).symm.flatMap_right _

theorem forBits_eq {w : Nat} (bm : BitVec w) (body : BitVec w → Option (List (Event T)))
    (g : Nat → List (Event T)) (h : ∀ i, bm.getLsbD i = true → body (bitOf w i) = some (g i)) :
    forBits bm body = some ((List.range w).flatMap (fun i => if bm.getLsbD i then g i else [])) := by
  rw [forBits, setBits_eq]
  have e : ∀ l : List Nat, ((l.filter (fun i => bm.getLsbD i)).map (bitOf w)).mapM body =
      some ((l.filter (fun i => bm.getLsbD i)).map g) := by
    intro l
    induction l with
    | nil => rfl
    | cons a l ih =>
      by_cases ha : bm.getLsbD a = true
      · simp [ha, ih, h a ha]
      · simp [ha, ih]
  rw [e]
  simp only [Option.bind_eq_bind, Option.bind_some]
  congr 1
  rw [← List.flatMap_def]
  induction List.range w with
  | nil => rfl
  | cons a l ih =>
    by_cases ha : bm.getLsbD a = true
    · simp [ha, ih]
    · simp [ha, ih]

theorem sget_get {α : Type} {w : Nat} {bm : BitVec w} {xs : List α} {i : Nat} {x : α}
    (h : sget bm xs i = some x) : xs[rank bm (bitOf w i)]? = some x := by
  have hb := sget_bit h
  rw [sget_of_bit hb] at h
  rw [rank_eq_cnt bm (lt_of_getLsbD hb)]; exact h

/-- what a slot of a well-formed node can be -/
theorem slot_cases {d shift p : Nat} {nm dm : BitVec c.W} {vs : List T} {cs : List c.N}
    (h : WF c (d + 1) shift p (.inner nm dm vs cs)) (i : Nat) :
    (nm.getLsbD i = false ∧ dm.getLsbD i = false ∧ slot c d nm dm vs cs i = []) ∨
    (∃ v, nm.getLsbD i = false ∧ dm.getLsbD i = true ∧ sget dm vs i = some v ∧
      slot c d nm dm vs cs i = [v]) ∨
    (∃ ch, nm.getLsbD i = true ∧ dm.getLsbD i = false ∧ sget nm cs i = some ch ∧
      slot c d nm dm vs cs i = elems c d ch ∧ WF c d (shift + c.B) (p + i * 2 ^ shift) ch) := by
  obtain ⟨hdis, hv, hcs, hvals, hch⟩ := h
  have e1 := sget_isSome hv i
  have e2 := sget_isSome hcs i
  have e3 := hdis i
  cases hd : dm.getLsbD i with
  | true =>
    have hn : nm.getLsbD i = false := by rw [hd] at e3; simpa using e3
    rw [hd, Option.isSome_iff_exists] at e1
    obtain ⟨x, hx⟩ := e1
    exact .inr (.inl ⟨x, hn, rfl, hx, slot_data hn hx⟩)
  | false =>
    cases hn : nm.getLsbD i with
    | true =>
      rw [hn, Option.isSome_iff_exists] at e2
      obtain ⟨x, hx⟩ := e2
      exact .inr (.inr ⟨x, rfl, rfl, hx, slot_child hd hx, (hch i x hx).1⟩)
    | false => exact .inl ⟨rfl, rfl, slot_none hn hd⟩

theorem and_bit_iff {w : Nat} {bm : BitVec w} {i : Nat} (hi : i < w) :
    (bm &&& bitOf w i ≠ 0#w) = (bm.getLsbD i = true) := by
  rw [eq_iff_iff]; exact and_bitOf_ne_zero hi

theorem diffNode_spec (hc : c.Lawful) (hr : ∀ x, eq x x = true) {same : c.N → c.N → Bool}
    (hsame : ∀ a b, same a b = true → a = b) {d shift p : Nat} {a b : c.N} (hp : p < 2 ^ shift)
    (ha : WF c d shift p a) (hb : WF c d shift p b) :
    ∃ es, diffNode c eq same d a b = some es ∧ es.Perm (diffSpec c eq (elems c d a) (elems c d b)) := by
  induction d generalizing shift p a b with
  | zero =>
    unfold diffNode
    by_cases hs : same a b = true
    · have := hsame _ _ hs; subst this
      exact ⟨[], by simp [hs], by rw [diffSpec_self hc hr (ha.pairwise hc hp)]⟩
    · cases a with
      | inner => exact ha.elim
      | collision vs =>
        cases b with
        | inner => exact hb.elim
        | collision vs' =>
          have hs' : same (.collision vs) (.collision vs') = false := by simpa using hs
          exact ⟨diffCollisions c eq vs vs', by simp only [hs', Bool.false_eq_true, if_false], by rw [diffCollisions_eq hc]; rfl⟩
  | succ d ih =>
    unfold diffNode
    by_cases hs : same a b = true
    · have := hsame _ _ hs; subst this
      exact ⟨[], by simp [hs], by rw [diffSpec_self hc hr (ha.pairwise hc hp)]⟩
    · cases a with
      | collision => exact ha.elim
      | inner nm dm vs cs =>
        cases b with
        | collision => exact hb.elim
        | inner nm' dm' vs' cs' =>
          have hs' : same (.inner nm dm vs cs) (.inner nm' dm' vs' cs') = false := by simpa using hs
          simp only [hs', Bool.false_eq_true, if_false]
          have hbit : ∀ (bm : BitVec c.W) i, (bm.getLsbD i = true) → i < c.W := fun _ _ h => lt_of_getLsbD h
          -- added bits
          rw [forBits_eq _ _ (fun i => (slot c d nm' dm' vs' cs' i).map Event.added) (by
            intro i hi
            have hi' := lt_of_getLsbD hi
            simp only [and_bit_iff hi']
            rcases slot_cases hb i with ⟨h1, h2, h3⟩ | ⟨v, h1, h2, h3, h4⟩ | ⟨ch, h1, h2, h3, h4, h5⟩
            · simp [h1, h2, h3]
            · simp [h1, h2, h4, sget_get h3]
            · obtain ⟨xss, hx1, hx2⟩ := chunks_spec h5
              simp [h1, sget_get h3, hx1, h4, ← hx2, List.map_flatten])]
          -- removed bits
          rw [forBits_eq _ _ (fun i => (slot c d nm dm vs cs i).map Event.removed) (by
            intro i hi
            have hi' := lt_of_getLsbD hi
            simp only [and_bit_iff hi']
            rcases slot_cases ha i with ⟨h1, h2, h3⟩ | ⟨v, h1, h2, h3, h4⟩ | ⟨ch, h1, h2, h3, h4, h5⟩
            · simp [h1, h2, h3]
            · simp [h1, h2, h4, sget_get h3]
            · obtain ⟨xss, hx1, hx2⟩ := chunks_spec h5
              simp [h1, sget_get h3, hx1, h4, ← hx2, List.map_flatten])]
          -- common bits
          have hcommon : ∀ i, i < c.W → ((nm ||| dm) &&& (nm' ||| dm')).getLsbD i = true →
              ∃ es, (if nm &&& bitOf c.W i ≠ 0#c.W ∧ nm' &&& bitOf c.W i ≠ 0#c.W then do
                  let oldChild ← cs[rank nm (bitOf c.W i)]?
                  let newChild ← cs'[rank nm' (bitOf c.W i)]?
                  diffNode c eq same d oldChild newChild
                else if dm &&& bitOf c.W i ≠ 0#c.W ∧ nm' &&& bitOf c.W i ≠ 0#c.W then do
                  let oldValue ← vs[rank dm (bitOf c.W i)]?
                  let newChild ← cs'[rank nm' (bitOf c.W i)]?
                  let xss ← chunks c d newChild
                  return diffDataNode c eq oldValue xss
                else if nm &&& bitOf c.W i ≠ 0#c.W ∧ dm' &&& bitOf c.W i ≠ 0#c.W then do
                  let oldChild ← cs[rank nm (bitOf c.W i)]?
                  let newValue ← vs'[rank dm' (bitOf c.W i)]?
                  let xss ← chunks c d oldChild
                  return diffNodeData c eq newValue xss
                else if dm &&& bitOf c.W i ≠ 0#c.W ∧ dm' &&& bitOf c.W i ≠ 0#c.W then do
                  let oldValue ← vs[rank dm (bitOf c.W i)]?
                  let newValue ← vs'[rank dm' (bitOf c.W i)]?
                  return diffDataData c eq oldValue newValue
                else some []) = some es ∧
                es.Perm (diffSpec c eq (slot c d nm dm vs cs i) (slot c d nm' dm' vs' cs' i)) := by
            intro i hi hb2
            simp only [and_bit_iff hi]
            rw [BitVec.getLsbD_and, BitVec.getLsbD_or, BitVec.getLsbD_or] at hb2
            rcases slot_cases ha i with ⟨h1, h2, h3⟩ | ⟨v, h1, h2, h3, h4⟩ | ⟨ch, h1, h2, h3, h4, h5⟩
            · simp [h1, h2] at hb2
            · rcases slot_cases hb i with ⟨g1, g2, g3⟩ | ⟨w, g1, g2, g3, g4⟩ | ⟨ch', g1, g2, g3, g4, g5⟩
              · simp [g1, g2] at hb2
              · refine ⟨diffDataData c eq v w, ?_, ?_⟩
                · simp [h1, h2, g1, g2, sget_get h3, sget_get g3]
                · rw [h4, g4]; exact diffDataData_perm hc v w
              · obtain ⟨xss, hx1, hx2⟩ := chunks_spec g5
                refine ⟨diffDataNode c eq v xss, ?_, ?_⟩
                · simp [h1, h2, g1, sget_get h3, sget_get g3, hx1]
                · rw [h4, g4, ← hx2]
                  apply diffDataNode_perm hc
                  rw [hx2]; exact g5.pairwise hc (prefix_lt hp hi)
            · rcases slot_cases hb i with ⟨g1, g2, g3⟩ | ⟨w, g1, g2, g3, g4⟩ | ⟨ch', g1, g2, g3, g4, g5⟩
              · simp [g1, g2] at hb2
              · obtain ⟨xss, hx1, hx2⟩ := chunks_spec h5
                refine ⟨diffNodeData c eq w xss, ?_, ?_⟩
                · simp [h1, g1, g2, sget_get h3, sget_get g3, hx1]
                · rw [h4, g4, ← hx2]
                  apply diffNodeData_perm hc
                  rw [hx2]; exact h5.pairwise hc (prefix_lt hp hi)
              · obtain ⟨es, he1, he2⟩ := ih (prefix_lt hp hi) h5 g5
                refine ⟨es, ?_, ?_⟩
                · simp [h1, g1, sget_get h3, sget_get g3, he1]
                · rw [h4, g4]; exact he2
          choose! g hg1 hg2 using hcommon
          rw [forBits_eq _ _ g (fun i hi => hg1 i (lt_of_getLsbD hi) hi)]
          simp only [Option.bind_eq_bind, Option.bind_some]
          refine ⟨_, rfl, ?_⟩
          refine List.Perm.trans ?_ (diffSpec_slots hc hp ha hb)
          refine ((List.flatMap_append_perm _ _ _).append_right _).trans ?_
          refine (List.flatMap_append_perm _ _ _).trans ?_
          apply List.Perm.flatMap_left
          intro i hi
          rw [List.mem_range] at hi
          have e1 : ((nm' ||| dm') &&& ((nm ||| dm) ^^^ (nm' ||| dm'))).getLsbD i =
              ((nm'.getLsbD i || dm'.getLsbD i) && ((nm.getLsbD i || dm.getLsbD i) ^^ (nm'.getLsbD i || dm'.getLsbD i))) := by
            simp
          have e2 : ((nm ||| dm) &&& ((nm ||| dm) ^^^ (nm' ||| dm'))).getLsbD i =
              ((nm.getLsbD i || dm.getLsbD i) && ((nm.getLsbD i || dm.getLsbD i) ^^ (nm'.getLsbD i || dm'.getLsbD i))) := by
            simp
          have e3 : ((nm ||| dm) &&& (nm' ||| dm')).getLsbD i =
              ((nm.getLsbD i || dm.getLsbD i) && (nm'.getLsbD i || dm'.getLsbD i)) := by
            simp
          have hg2i := hg2 i hi
          rw [e1, e2]
          rw [e3] at hg2i ⊢
          clear hg1 hg2 e1 e2 e3 ih hs hs' hsame
          rcases slot_cases ha i with ⟨h1, h2, h3⟩ | ⟨v, h1, h2, h3, h4⟩ | ⟨ch, h1, h2, h3, h4, h5⟩ <;>
          rcases slot_cases hb i with ⟨g1, g2, g3⟩ | ⟨w, g1, g2, g3, g4⟩ | ⟨ch', g1, g2, g3, g4, g5⟩ <;>
          simp only [h1, h2, g1, g2, Bool.or_true, Bool.or_false, Bool.true_and, Bool.false_and,
            Bool.and_true, Bool.and_false, Bool.xor_true, Bool.xor_false, Bool.not_true, Bool.not_false, Bool.or_self,
            Bool.true_or, Bool.false_or, Bool.false_eq_true, if_true, if_false, List.append_nil, List.nil_append,
            forall_const] at hg2i ⊢
          · rw [h3, g3]; rfl
          · rw [h3, diffSpec_nil_left]
          · rw [h3, diffSpec_nil_left]
          · rw [g3, diffSpec_nil_right]
          · exact hg2i
          · exact hg2i
          · rw [g3, diffSpec_nil_right]
          · exact hg2i
          · exact hg2i

/-! ## property theorem -/

/-- key a callback is about -/
def Event.key (c : Cfg K T) : Event T → K
  | .added x => c.key x
  | .removed x => c.key x
  | .changed x _ => c.key x

theorem mem_diffSpec_added (hc : c.Lawful) {la lb : List T}
    (hb : lb.Pairwise (fun a b => c.eqv (c.key a) (c.key b) = false)) (y : T) :
    Event.added y ∈ diffSpec c eq la lb ↔ look c la (c.key y) = none ∧ look c lb (c.key y) = some y := by
  rw [diffSpec, List.mem_append, List.mem_flatMap, List.mem_flatMap]
  constructor
  · rintro (⟨x, hx, h⟩ | ⟨x, hx, h⟩)
    · rw [evOld] at h
      split at h
      · simp at h
      · split at h <;> simp at h
    · rw [evNew] at h
      split at h
      · rename_i hl
        simp at h; subst h
        exact ⟨hl, look_self hc hb hx⟩
      · simp at h
  · rintro ⟨h1, h2⟩
    exact .inr ⟨y, ((look_some_iff hc hb).mp h2).1, by simp [evNew, h1]⟩

theorem mem_diffSpec_removed (hc : c.Lawful) {la lb : List T}
    (ha : la.Pairwise (fun a b => c.eqv (c.key a) (c.key b) = false)) (x : T) :
    Event.removed x ∈ diffSpec c eq la lb ↔ look c la (c.key x) = some x ∧ look c lb (c.key x) = none := by
  rw [diffSpec, List.mem_append, List.mem_flatMap, List.mem_flatMap]
  constructor
  · rintro (⟨y, hy, h⟩ | ⟨y, hy, h⟩)
    · rw [evOld] at h
      split at h
      · rename_i hl
        simp at h; subst h
        exact ⟨look_self hc ha hy, hl⟩
      · split at h <;> simp at h
    · rw [evNew] at h
      split at h <;> simp at h
  · rintro ⟨h1, h2⟩
    exact .inl ⟨x, ((look_some_iff hc ha).mp h1).1, by simp [evOld, h2]⟩

theorem mem_diffSpec_changed (hc : c.Lawful) {la lb : List T}
    (ha : la.Pairwise (fun a b => c.eqv (c.key a) (c.key b) = false)) (x y : T) :
    Event.changed x y ∈ diffSpec c eq la lb ↔
      look c la (c.key x) = some x ∧ look c lb (c.key x) = some y ∧ eq x y = false := by
  rw [diffSpec, List.mem_append, List.mem_flatMap, List.mem_flatMap]
  constructor
  · rintro (⟨z, hz, h⟩ | ⟨z, hz, h⟩)
    · rw [evOld] at h
      split at h
      · simp at h
      · rename_i w hl
        split at h
        · simp at h
        · rename_i he
          simp at h
          obtain ⟨rfl, rfl⟩ := h
          exact ⟨look_self hc ha hz, hl, by simpa using he⟩
    · rw [evNew] at h
      split at h <;> simp at h
  · rintro ⟨h1, h2, h3⟩
    exact .inl ⟨x, ((look_some_iff hc ha).mp h1).1, by simp [evOld, h2, h3]⟩

theorem pairwise_flatMap_of {l : List T} {f : T → List (Event T)}
    (hl : l.Pairwise (fun a b => c.eqv (c.key a) (c.key b) = false))
    (h1 : ∀ x ∈ l, (f x).length ≤ 1) (h2 : ∀ x ∈ l, ∀ e ∈ f x, e.key c = c.key x) :
    (l.flatMap f).Pairwise (fun a b => c.eqv (a.key c) (b.key c) = false) := by
  rw [List.pairwise_flatMap]
  constructor
  · intro x hx
    have := h1 x hx
    match hf : f x, this with
    | [], _ => exact List.Pairwise.nil
    | [_], _ => exact List.pairwise_singleton _ _
  · refine hl.imp_of_mem ?_
    intro a b ha hb hab x hx y hy
    rw [h2 a ha x hx, h2 b hb y hy]; exact hab

theorem diffSpec_pairwise (hc : c.Lawful) {la lb : List T}
    (ha : la.Pairwise (fun a b => c.eqv (c.key a) (c.key b) = false))
    (hb : lb.Pairwise (fun a b => c.eqv (c.key a) (c.key b) = false)) :
    (diffSpec c eq la lb).Pairwise (fun a b => c.eqv (a.key c) (b.key c) = false) := by
  have k1 : ∀ x, ∀ e ∈ evOld c eq lb x, e.key c = c.key x := by
    intro x e he
    rw [evOld] at he
    split at he
    · simp at he; subst he; rfl
    · split at he
      · simp at he
      · simp at he; subst he; rfl
  have k2 : ∀ x, ∀ e ∈ evNew c la x, e.key c = c.key x := by
    intro x e he
    rw [evNew] at he
    split at he
    · simp at he; subst he; rfl
    · simp at he
  rw [diffSpec, List.pairwise_append]
  refine ⟨pairwise_flatMap_of ha ?_ (fun x _ => k1 x), pairwise_flatMap_of hb ?_ (fun x _ => k2 x), ?_⟩
  · intro x _
    rw [evOld]
    split
    · simp
    · split <;> simp
  · intro x _
    rw [evNew]
    split <;> simp
  · intro e he f hf
    rw [List.mem_flatMap] at he hf
    obtain ⟨x, hx, he⟩ := he
    obtain ⟨y, hy, hf⟩ := hf
    rw [k1 x e he, k2 y f hf]
    rw [evNew] at hf
    split at hf
    · rename_i hl
      exact look_none_iff.mp hl x hx
    · simp at hf

/-- **C06.** For any two containers built by any two histories, `diff(old, new)` calls `added(y)`
exactly for the elements `y` of the new container whose key the old one lacks, `removed(x)` exactly for
the elements `x` of the old container whose key the new one lacks, `changed(x, y)` exactly for the pairs
stored under the same key that compare different, and makes at most one call per key. -/
theorem C06_diff (A : Api K T P) (hA : A.Lawful) (eq : T → T → Bool) (eq_refl : ∀ x, eq x x = true)
    (same : A.cfg.N → A.cfg.N → Bool) (hsame : ∀ a b, same a b = true → a = b)
    (ops ops' : List (Op K T P)) :
    ∃ m m' es, run A ops = some m ∧ run A ops' = some m' ∧ Map.diff eq same m m' = some es ∧
      (∀ y, .added y ∈ es ↔
        Spec.run A ops (A.cfg.key y) = none ∧ Spec.run A ops' (A.cfg.key y) = some y) ∧
      (∀ x, .removed x ∈ es ↔
        Spec.run A ops (A.cfg.key x) = some x ∧ Spec.run A ops' (A.cfg.key x) = none) ∧
      (∀ x y, .changed x y ∈ es ↔ Spec.run A ops (A.cfg.key x) = some x ∧
        Spec.run A ops' (A.cfg.key x) = some y ∧ eq x y = false) ∧
      es.Pairwise (fun e f => A.cfg.eqv (e.key A.cfg) (f.key A.cfg) = false) := by
  obtain ⟨m, h1, h2, h3⟩ := run_spec hA ops
  obtain ⟨m', h1', h2', h3'⟩ := run_spec hA ops'
  obtain ⟨es, h4, h5⟩ := diffNode_spec hA.cfg eq_refl hsame (by simp) h2.wf h2'.wf
  refine ⟨m, m', es, h1, h1', h4, ?_, ?_, ?_, ?_⟩
  · intro y; rw [h5.mem_iff, ← h3, ← h3']
    exact mem_diffSpec_added hA.cfg (h2'.pairwise hA.cfg) y
  · intro y; rw [h5.mem_iff, ← h3, ← h3']
    exact mem_diffSpec_removed hA.cfg (h2.pairwise hA.cfg) y
  · intro x y; rw [h5.mem_iff, ← h3, ← h3']
    exact mem_diffSpec_changed hA.cfg (h2.pairwise hA.cfg) x y
  · have := diffSpec_pairwise (eq := eq) hA.cfg (h2.pairwise hA.cfg) (h2'.pairwise hA.cfg)
    exact (List.Perm.pairwise_iff (fun {x y} h => by rw [eqv_comm hA.cfg]; exact h) h5).mpr this

/-- the theorem applies to the concrete `exApi`, and the model computes a mixture of all three callbacks -/
example : (do
    let a ← run exApi exOps
    let b ← run exApi ([.insert (27, 0), .insert (2, 9), .insert (4, 1), .insert (14, 2), .insert (3, 3)])
    Map.diff (fun a b => decide (a = b)) (fun _ _ => false) a b) =
    some [.added (3, 3), .removed (11, 11), .added (14, 2), .changed (2, 8) (2, 9)] := by
  decide +kernel

end Champ
