import Verif.Champ.MapInv

/-!
# Equality of tries is extensional (helper lemmas for C05, C07)
-/

namespace Champ

variable {K T : Type} {c : Cfg K T}

/-- two lookup results agree -/
abbrev RelOpt (eq : T → T → Bool) : Option T → Option T → Prop := Spec.Agree eq

/-- two element lists have the same content as maps -/
def SameContent (c : Cfg K T) (eq : T → T → Bool) (l l' : List T) : Prop :=
  ∀ k, RelOpt eq (look c l k) (look c l' k)

/-- requirements on the element comparison used by `==` -/
structure EqLaw (c : Cfg K T) (eq : T → T → Bool) : Prop where
  refl : ∀ x, eq x x = true
  key : ∀ x y, eq x y = true → c.eqv (c.key x) (c.key y) = true

section
variable {eq : T → T → Bool}

theorem relOpt_refl (he : EqLaw c eq) (a : Option T) : RelOpt eq a a := by
  cases a
  · trivial
  · exact he.refl _

theorem relOpt_isSome {a b : Option T} (h : RelOpt eq a b) : a.isSome = b.isSome := by
  cases a <;> cases b <;> first | rfl | exact h.elim

theorem SameContent.length (hc : c.Lawful) {l l' : List T} (h : SameContent c eq l l')
    (hp : l.Pairwise (fun a b => c.eqv (c.key a) (c.key b) = false))
    (hp' : l'.Pairwise (fun a b => c.eqv (c.key a) (c.key b) = false)) : l.length = l'.length :=
  length_eq_of_isSome hc hp hp' (fun k => relOpt_isSome (h k))

/-! ### collision nodes -/

theorem collisions_iff (hc : c.Lawful) (he : EqLaw c eq) {a b : List T}
    (hp : a.Pairwise (fun a b => c.eqv (c.key a) (c.key b) = false))
    (hp' : b.Pairwise (fun a b => c.eqv (c.key a) (c.key b) = false)) :
    (a.length = b.length ∧ equalsCollisions eq a b = true) ↔ SameContent c eq a b := by
  constructor
  · rintro ⟨hl, h⟩ k
    have h1 : ∀ x ∈ a, ∃ y ∈ b, eq x y = true := by
      intro x hx
      have := List.all_eq_true.mp h x hx
      simpa using this
    cases hk : look c a k with
    | some x =>
      obtain ⟨hx, hxk⟩ := (look_some_iff hc hp).mp hk
      obtain ⟨y, hy, hxy⟩ := h1 x hx
      have : look c b k = some y := (look_some_iff hc hp').mpr
        ⟨hy, hc.trans _ _ _ (hc.symm _ _ (he.key _ _ hxy)) hxk⟩
      rw [this]; exact hxy
    | none =>
      cases hk' : look c b k with
      | none => trivial
      | some y =>
        exfalso
        obtain ⟨hy, hyk⟩ := (look_some_iff hc hp').mp hk'
        obtain ⟨s, t, rfl⟩ := List.append_of_mem hy
        have hno := look_none_iff.mp hk
        have : a.length ≤ (s ++ t).length := by
          apply length_le_of_keys hc hp
          intro x hx
          obtain ⟨z, hz, hxz⟩ := h1 x hx
          refine ⟨z, ?_, he.key _ _ hxz⟩
          simp only [List.mem_append, List.mem_cons] at hz ⊢
          rcases hz with hz | rfl | hz
          · exact .inl hz
          · have h3 := hno x hx
            rw [hc.trans _ _ _ (he.key _ _ hxz) hyk] at h3; cases h3
          · exact .inr hz
        simp at this hl; omega
  · intro h
    refine ⟨h.length hc hp hp', ?_⟩
    rw [equalsCollisions, List.all_eq_true]
    intro x hx
    have h1 : look c a (c.key x) = some x := (look_some_iff hc hp).mpr ⟨hx, hc.refl _⟩
    have h2 := h (c.key x)
    rw [h1] at h2
    cases h3 : look c b (c.key x) with
    | none => rw [h3] at h2; exact h2.elim
    | some y =>
      rw [h3] at h2
      rw [List.any_eq_true]
      exact ⟨y, ((look_some_iff hc hp').mp h3).1, h2⟩

/-! ### inner nodes, slot by slot -/

theorem look_slot_other (hc : c.Lawful) {d shift p : Nat} {nm dm : BitVec c.W} {vs : List T}
    {cs : List c.N} (h : WF c (d + 1) shift p (.inner nm dm vs cs)) (hp : p < 2 ^ shift) {i : Nat}
    {k : K} (hk : (c.hash k).toNat % 2 ^ (shift + c.B) ≠ p + i * 2 ^ shift) :
    look c (slot c d nm dm vs cs i) k = none := by
  rw [look_none_iff]
  intro x hx
  have h1 := h.slot_hash hp hx
  by_contra hne
  have he : c.eqv (c.key x) k = true := by simpa using hne
  rw [hc.hash_eq _ _ he] at h1
  exact hk h1

theorem look_other (hc : c.Lawful) {d shift p : Nat} {n : c.N} (h : WF c d shift p n)
    (hp : p < 2 ^ shift) {k : K} (hk : (c.hash k).toNat % 2 ^ shift ≠ p) :
    look c (elems c d n) k = none := by
  rw [look_none_iff]
  intro x hx
  have h1 := h.hash_mem hp hx
  by_contra hne
  have he : c.eqv (c.key x) k = true := by simpa using hne
  rw [hc.hash_eq _ _ he] at h1
  exact hk h1

theorem sameContent_slots (hc : c.Lawful) {d shift p : Nat} {nm dm nm' dm' : BitVec c.W}
    {vs vs' : List T} {cs cs' : List c.N} (hp : p < 2 ^ shift)
    (h : WF c (d + 1) shift p (.inner nm dm vs cs))
    (h' : WF c (d + 1) shift p (.inner nm' dm' vs' cs')) :
    SameContent c eq (elems c (d + 1) (.inner nm dm vs cs)) (elems c (d + 1) (.inner nm' dm' vs' cs')) ↔
      ∀ i, SameContent c eq (slot c d nm dm vs cs i) (slot c d nm' dm' vs' cs' i) := by
  constructor
  · intro hs i k
    by_cases hk : (c.hash k).toNat % 2 ^ (shift + c.B) = p + i * 2 ^ shift
    · have hk1 : (c.hash k).toNat % 2 ^ shift = p := by
        rw [mod_of_mod_add hk, Nat.add_mul_mod_self_right, Nat.mod_eq_of_lt hp]
      have hi : c.idx (c.hash k) shift = i := by
        rw [mod_idx c hk1] at hk; exact slot_inj hk
      have := hs k
      rw [look, look, find_slot hc h hp hk1, find_slot hc h' hp hk1, hi] at this
      exact this
    · rw [look_slot_other hc h hp hk, look_slot_other hc h' hp hk]; trivial
  · intro hs k
    by_cases hk1 : (c.hash k).toNat % 2 ^ shift = p
    · rw [look, look, find_slot hc h hp hk1, find_slot hc h' hp hk1]
      exact hs _ k
    · rw [look_other hc h hp hk1, look_other hc h' hp hk1]; trivial

theorem slot_pairwise (hc : c.Lawful) {d shift p : Nat} {nm dm : BitVec c.W} {vs : List T}
    {cs : List c.N} (h : WF c (d + 1) shift p (.inner nm dm vs cs)) (hp : p < 2 ^ shift) (i : Nat) :
    (slot c d nm dm vs cs i).Pairwise (fun a b => c.eqv (c.key a) (c.key b) = false) := by
  obtain ⟨hdis, hv, hcs, hvals, hch⟩ := h
  rw [slot]
  cases hs : sget dm vs i with
  | some v =>
    have hd := sget_bit hs
    have hn : nm.getLsbD i = false := by
      have := hdis i; rw [hd] at this; simpa using this
    simp [sget_none_of_bit hn]
  | none =>
    cases hs2 : sget nm cs i with
    | none => simp
    | some ch => simpa using (hch i ch hs2).1.pairwise hc (prefix_lt hp (sget_lt hs2))

/-- the bitmaps can be read off the number of elements in each slot -/
theorem slot_length {d shift p : Nat} {nm dm : BitVec c.W} {vs : List T}
    {cs : List c.N} (h : WF c (d + 1) shift p (.inner nm dm vs cs)) (i : Nat) :
    (dm.getLsbD i = decide ((slot c d nm dm vs cs i).length = 1)) ∧
    (nm.getLsbD i = decide (2 ≤ (slot c d nm dm vs cs i).length)) := by
  obtain ⟨hdis, hv, hcs, hvals, hch⟩ := h
  have h1 := sget_isSome hv i
  have h2 := sget_isSome hcs i
  cases hd : dm.getLsbD i with
  | true =>
    have hn : nm.getLsbD i = false := by
      have := hdis i; rw [hd] at this; simpa using this
    rw [hd, Option.isSome_iff_exists] at h1
    obtain ⟨x, hx⟩ := h1
    rw [slot_data hn hx, hn]; simp
  | false =>
    cases hn : nm.getLsbD i with
    | true =>
      rw [hn, Option.isSome_iff_exists] at h2
      obtain ⟨x, hx⟩ := h2
      rw [slot_child hd hx]
      have := (hch i x hx).2
      simp; omega
    | false => rw [slot_none hn hd]; simp

theorem bitmaps_eq_of_slots {d shift p : Nat} {nm dm nm' dm' : BitVec c.W}
    {vs vs' : List T} {cs cs' : List c.N}
    (h : WF c (d + 1) shift p (.inner nm dm vs cs))
    (h' : WF c (d + 1) shift p (.inner nm' dm' vs' cs'))
    (hl : ∀ i, (slot c d nm dm vs cs i).length = (slot c d nm' dm' vs' cs' i).length) :
    nm = nm' ∧ dm = dm' := by
  constructor
  · apply BitVec.eq_of_getLsbD_eq
    intro i _
    rw [(slot_length h i).2, (slot_length h' i).2, hl]
  · apply BitVec.eq_of_getLsbD_eq
    intro i _
    rw [(slot_length h i).1, (slot_length h' i).1, hl]

theorem foldlM_all {α : Type} (f : α → Option Bool) (g : α → Bool) (l : List α)
    (h : ∀ x ∈ l, f x = some (g x)) :
    l.foldlM (fun (ok : Bool) x => if ok then f x else some false) true = some (l.all g) := by
  have hfalse : ∀ l : List α, l.foldlM (fun (ok : Bool) x => if ok then f x else some false) false =
      some false := by
    intro l
    induction l with
    | nil => rfl
    | cons a l ih => rw [List.foldlM_cons]; simpa using ih
  induction l with
  | nil => rfl
  | cons a l ih =>
    rw [List.foldlM_cons]
    simp only [if_true, h a (by simp), List.all_cons]
    cases hg : g a with
    | true => simpa using ih (fun x hx => h x (by simp [hx]))
    | false => simpa using hfalse l

theorem mem_zip_iff_sget {α : Type} {w : Nat} {bm : BitVec w} {xs ys : List α}
    (hx : xs.length = popcount bm) (hy : ys.length = popcount bm) (x y : α) :
    (x, y) ∈ xs.zip ys ↔ ∃ i, sget bm xs i = some x ∧ sget bm ys i = some y := by
  have hz : (xs.zip ys).length = popcount bm := by simp [hx, hy]
  rw [mem_iff_sget hz]
  constructor
  · rintro ⟨i, hi⟩
    have hb := sget_bit hi
    rw [sget_of_bit hb] at hi
    refine ⟨i, ?_⟩
    rw [sget_of_bit hb, sget_of_bit hb]
    rw [List.getElem?_zip_eq_some] at hi
    exact hi
  · rintro ⟨i, h1, h2⟩
    have hb := sget_bit h1
    rw [sget_of_bit hb] at h1 h2
    refine ⟨i, ?_⟩
    rw [sget_of_bit hb, List.getElem?_zip_eq_some]
    exact ⟨h1, h2⟩

theorem equalsValues_eq (a b : List T) (h : a.length = b.length) :
    equalsValues eq a b a.length = some ((a.zip b).all (fun p => eq p.1 p.2)) := by
  induction a generalizing b with
  | nil => rfl
  | cons x a ih =>
    cases b with
    | nil => simp at h
    | cons y b =>
      simp only [List.length_cons, Nat.add_right_cancel_iff] at h
      simp only [List.length_cons, equalsValues, ih b h, List.zip_cons_cons, List.all_cons]
      cases eq x y <;> simp

theorem look_single (x : T) (k : K) : look c [x] k = if c.eqv (c.key x) k then some x else none := by
  simp only [look, List.find?_cons, List.find?_nil]
  cases c.eqv (c.key x) k <;> simp

theorem sameContent_single (hc : c.Lawful) (he : EqLaw c eq) (x y : T) :
    SameContent c eq [x] [y] ↔ eq x y = true := by
  constructor
  · intro h
    have := h (c.key x)
    rw [look_single, look_single, hc.refl] at this
    simp only [if_true] at this
    by_cases hk : c.eqv (c.key y) (c.key x) = true
    · rw [hk] at this; exact this
    · simp only [hk] at this; exact this.elim
  · intro h k
    rw [look_single, look_single]
    have h1 := he.key _ _ h
    by_cases hk : c.eqv (c.key x) k = true
    · rw [hk, hc.trans _ _ _ (hc.symm _ _ h1) hk]; exact h
    · have : ¬ c.eqv (c.key y) k = true := fun h2 => hk (hc.trans _ _ _ h1 h2)
      simp only [hk, this]; trivial

theorem equalsTree_spec (hc : c.Lawful) (he : EqLaw c eq) {same : c.N → c.N → Bool}
    (hsame : ∀ a b, same a b = true → a = b) {d shift p : Nat} {a b : c.N} (hp : p < 2 ^ shift)
    (ha : WF c d shift p a) (hb : WF c d shift p b) :
    ∃ r, equalsTree c eq same d a b = some r ∧
      (r = true ↔ SameContent c eq (elems c d a) (elems c d b)) := by
  induction d generalizing shift p a b with
  | zero =>
    unfold equalsTree
    by_cases hs : same a b = true
    · have := hsame _ _ hs; subst this
      exact ⟨true, by simp [hs], ⟨fun _ k => relOpt_refl he _, fun _ => rfl⟩⟩
    · cases a with
      | inner => exact ha.elim
      | collision vs =>
        cases b with
        | inner => exact hb.elim
        | collision vs' =>
          have hs' : same (.collision vs) (.collision vs') = false := by simpa using hs
          simp only [hs', elems]
          have := collisions_iff hc he ha.2.2 hb.2.2
          by_cases hl : vs.length = vs'.length
          · simp only [hl, true_and] at this
            exact ⟨_, by simp [hl], this⟩
          · simp only [hl, false_and] at this
            exact ⟨false, by simp [hl], by simpa using this⟩
  | succ d ih =>
    unfold equalsTree
    by_cases hs : same a b = true
    · have := hsame _ _ hs; subst this
      exact ⟨true, by simp [hs], ⟨fun _ k => relOpt_refl he _, fun _ => rfl⟩⟩
    · cases a with
      | collision => exact ha.elim
      | inner nm dm vs cs =>
        cases b with
        | collision => exact hb.elim
        | inner nm' dm' vs' cs' =>
          have hs' : same (.inner nm dm vs cs) (.inner nm' dm' vs' cs') = false := by simpa using hs
          simp only [hs', Bool.false_eq_true, if_false]
          rw [sameContent_slots hc hp ha hb]
          by_cases hbm : nm ≠ nm' ∨ dm ≠ dm'
          · refine ⟨false, by simp only [hbm, if_true], ?_⟩
            simp only [Bool.false_eq_true, false_iff]
            intro hsl
            have := bitmaps_eq_of_slots ha hb (fun i =>
              (hsl i).length hc (slot_pairwise hc ha hp i) (slot_pairwise hc hb hp i))
            rcases hbm with h | h
            · exact h this.1
            · exact h this.2
          · push Not at hbm
            obtain ⟨rfl, rfl⟩ := hbm
            have hda := ha
            have hdb := hb
            obtain ⟨hdis, hv, hcs, hvals, hch⟩ := ha
            obtain ⟨hdis', hv', hcs', hvals', hch'⟩ := hb
            -- per-child result
            have hex : ∀ x y, (x, y) ∈ cs.zip cs' → ∃ r, equalsTree c eq same d x y = some r ∧
                (r = true ↔ SameContent c eq (elems c d x) (elems c d y)) := by
              intro x y hxy
              obtain ⟨i, h1, h2⟩ := (mem_zip_iff_sget hcs hcs' x y).mp hxy
              exact ih (prefix_lt hp (sget_lt h1)) (hch i x h1).1 (hch' i y h2).1
            classical
            let g : c.N × c.N → Bool := fun q => decide (SameContent c eq (elems c d q.1) (elems c d q.2))
            have hg : ∀ q ∈ cs.zip cs', equalsTree c eq same d q.1 q.2 = some (g q) := by
              intro q hq
              obtain ⟨r, h1, h2⟩ := hex q.1 q.2 hq
              rw [h1]
              congr 1
              rw [Bool.eq_iff_iff, h2]
              simp [g]
            have hfold := foldlM_all (fun q : c.N × c.N => equalsTree c eq same d q.1 q.2) g _ hg
            rw [slice_all hcs, slice_all hcs']
            simp only [ne_eq, not_true_eq_false, or_self, if_false, Option.bind_eq_bind,
              Option.bind_some, hfold]
            have hvr : (if popcount dm = 0 then some true else equalsValues eq vs vs' (popcount dm)) =
                some ((vs.zip vs').all (fun p => eq p.1 p.2)) := by
              by_cases h0 : popcount dm = 0
              · have : vs = [] := List.eq_nil_of_length_eq_zero (by omega)
                simp [h0, this]
              · rw [if_neg h0, ← hv, equalsValues_eq vs vs' (by omega)]
            rw [hvr]
            refine ⟨(cs.zip cs').all g && (vs.zip vs').all (fun p => eq p.1 p.2), ?_, ?_⟩
            · cases (cs.zip cs').all g <;> simp
            · rw [Bool.and_eq_true, List.all_eq_true, List.all_eq_true]
              constructor
              · rintro ⟨h1, h2⟩ i
                cases hdi : dm.getLsbD i with
                | true =>
                  have hn : nm.getLsbD i = false := by
                    have := hdis i; rw [hdi] at this; simpa using this
                  have e1 := sget_isSome hv i
                  have e2 := sget_isSome hv' i
                  rw [hdi, Option.isSome_iff_exists] at e1 e2
                  obtain ⟨x, hx⟩ := e1
                  obtain ⟨y, hy⟩ := e2
                  rw [slot_data hn hx, slot_data hn hy, sameContent_single hc he]
                  exact h2 (x, y) ((mem_zip_iff_sget hv hv' x y).mpr ⟨i, hx, hy⟩)
                | false =>
                  cases hni : nm.getLsbD i with
                  | true =>
                    have e1 := sget_isSome hcs i
                    have e2 := sget_isSome hcs' i
                    rw [hni, Option.isSome_iff_exists] at e1 e2
                    obtain ⟨x, hx⟩ := e1
                    obtain ⟨y, hy⟩ := e2
                    rw [slot_child hdi hx, slot_child hdi hy]
                    have := h1 (x, y) ((mem_zip_iff_sget hcs hcs' x y).mpr ⟨i, hx, hy⟩)
                    simpa [g] using this
                  | false =>
                    rw [slot_none hni hdi, slot_none hni hdi]
                    intro k; trivial
              · intro hsl
                constructor
                · rintro ⟨x, y⟩ hq
                  obtain ⟨i, h1, h2⟩ := (mem_zip_iff_sget hcs hcs' x y).mp hq
                  have hni := sget_bit h1
                  have hdi : dm.getLsbD i = false := by
                    have := hdis i; rw [hni] at this; simpa using this
                  have := hsl i
                  rw [slot_child hdi h1, slot_child hdi h2] at this
                  simpa [g] using this
                · rintro ⟨x, y⟩ hq
                  obtain ⟨i, h1, h2⟩ := (mem_zip_iff_sget hv hv' x y).mp hq
                  have hdi := sget_bit h1
                  have hni : nm.getLsbD i = false := by
                    have := hdis i; rw [hdi] at this; simpa using this
                  have := hsl i
                  rwa [slot_data hni h1, slot_data hni h2, sameContent_single hc he] at this

theorem Map.equals_spec (hc : c.Lawful) (he : EqLaw c eq) {same : c.N → c.N → Bool}
    (hsame : ∀ a b, same a b = true → a = b) {a b : Map c} (ha : a.Inv) (hb : b.Inv) :
    ∃ r, Map.equals eq same a b = some r ∧ (r = true ↔ SameContent c eq a.els b.els) := by
  obtain ⟨r, h1, h2⟩ := equalsTree_spec hc he hsame (by simp) ha.wf hb.wf
  unfold Map.equals
  by_cases hs : a.size = b.size
  · exact ⟨r, by simp [hs, h1], h2⟩
  · refine ⟨false, by simp [hs], ?_⟩
    simp only [Bool.false_eq_true, false_iff]
    intro h
    apply hs
    rw [ha.size, hb.size]
    exact h.length hc (ha.pairwise hc) (hb.pairwise hc)

end
end Champ
