import Verif.ChampHeap.Release
import Verif.Champ.MapInv

/-!
# The operations on trees as values

`put` covers `do_add`, `do_update` and `do_update_if_exists` of `Verif/Champ/Model.lean`, as `doPut` does for memory.
-/

namespace ChampHeap
open Mm Champ

variable {K T : Type} (c : Cfg K T)

/-- outer `none`: undefined; inner `none`: there is no element with the key, and only such should be changed -/
def put (ex : Bool) (g : Option T → T) (k : K) : (d : Nat) → c.N → (hash : BitVec 64) → (shift : Nat) → Option (Option (c.N × Bool))
  | 0, .inner .., _, _ => none
  | 0, .collision vs, _, _ =>
    match vs.findIdx? (fun x => c.eqv (c.key x) k) with
    | some pos => do
      let x ← vs[pos]?
      return some (← Champ.copyCollisionReplace vs pos (g (some x)), false)
    | none => if ex then some none else some (some (Champ.copyCollisionInsert vs (g none), true))
  | _ + 1, .collision _, _, _ => none
  | d + 1, .inner nm dm vs cs, hash, shift =>
    let bit := bitOf c.W (c.idx hash shift)
    if nm &&& bit ≠ 0#c.W then do
      let child ← cs[rank nm bit]?
      match ← put ex g k d child hash (shift + c.B) with
      | some (r, added) => return some (← Champ.copyInnerReplace nm dm vs cs (rank nm bit) r, added)
      | none => return none
    else if dm &&& bit ≠ 0#c.W then do
      let val ← vs[rank dm bit]?
      if c.eqv (c.key val) k then
        return some (← Champ.copyInnerReplaceValue nm dm vs cs (rank dm bit) (g (some val)), false)
      else if ex then return none
      else
        let child := Champ.makeMerged c d (shift + c.B) (g none) hash val (c.hash (c.key val))
        return some (← Champ.copyInnerReplaceMerged nm dm vs cs bit (rank dm bit) child, true)
    else if ex then some none
    else do
      return some (← Champ.copyInnerInsertValue nm dm vs cs bit (g none), true)

theorem put_add (v : T) (d : Nat) : ∀ (n : c.N) (hash : BitVec 64) (shift : Nat),
    put c false (fun _ => v) (c.key v) d n hash shift = (doAdd c d n v hash shift).map some := by
  induction d with
  | zero =>
    intro n hash shift
    cases n with
    | inner => rfl
    | collision vs =>
      rw [put, doAdd]
      cases hf : vs.findIdx? (fun x => c.eqv (c.key x) (c.key v)) with
      | none => rfl
      | some pos =>
        obtain ⟨x, h1, _⟩ := findIdx?_split hf
        simp only [h1, Option.bind_eq_bind, Option.bind_some]
        cases Champ.copyCollisionReplace (w := c.W) vs pos v <;> rfl
  | succ d ih =>
    intro n hash shift
    cases n with
    | collision => rfl
    | inner nm dm vs cs =>
      rw [put, doAdd]
      simp only []
      split
      · cases cs[rank nm (bitOf c.W (c.idx hash shift))]? with
        | none => rfl
        | some ch =>
          simp only [Option.bind_eq_bind, Option.bind_some, ih]
          cases doAdd c d ch v hash (shift + c.B) with
          | none => rfl
          | some x =>
            obtain ⟨r, ad⟩ := x
            simp only [Option.map_some, Option.bind_some]
            cases Champ.copyInnerReplace nm dm vs cs (rank nm (bitOf c.W (c.idx hash shift))) r <;> rfl
      · split
        · cases vs[rank dm (bitOf c.W (c.idx hash shift))]? with
          | none => rfl
          | some x =>
            simp only [Option.bind_eq_bind, Option.bind_some]
            split
            · cases Champ.copyInnerReplaceValue nm dm vs cs (rank dm (bitOf c.W (c.idx hash shift))) v <;> rfl
            · simp only [Bool.false_eq_true, if_false]
              cases Champ.copyInnerReplaceMerged nm dm vs cs (bitOf c.W (c.idx hash shift)) (rank dm (bitOf c.W (c.idx hash shift))) (Champ.makeMerged c d (shift + c.B) v hash x (c.hash (c.key x))) <;> rfl
        · simp only [Bool.false_eq_true, if_false]
          cases Champ.copyInnerInsertValue nm dm vs cs (bitOf c.W (c.idx hash shift)) v <;> rfl

variable {P : Type}

/-- the new element of `update` -/
def updG (u : Upd K T P Unit) (k : K) (o : Option T) : T := u.combine k (u.fn (o.elim u.dflt u.project) ()).1

theorem put_update (u : Upd K T P Unit) (k : K) (d : Nat) : ∀ (n : c.N) (hash : BitVec 64) (shift : Nat),
    put c false (updG u k) k d n hash shift = (doUpdate c u d n k hash shift ()).map fun x => some x.1 := by
  induction d with
  | zero =>
    intro n hash shift
    cases n with
    | inner => rfl
    | collision vs =>
      rw [put, doUpdate]
      cases hf : vs.findIdx? (fun x => c.eqv (c.key x) k) with
      | none => rfl
      | some pos =>
        obtain ⟨x, h1, _⟩ := findIdx?_split hf
        simp only [h1, Option.bind_eq_bind, Option.bind_some]
        show _ = Option.map _ ((Champ.copyCollisionReplace vs pos (updG u k (some x))).bind _)
        cases Champ.copyCollisionReplace (w := c.W) vs pos (updG u k (some x)) <;> rfl
  | succ d ih =>
    intro n hash shift
    cases n with
    | collision => rfl
    | inner nm dm vs cs =>
      rw [put, doUpdate]
      simp only []
      split
      · cases cs[rank nm (bitOf c.W (c.idx hash shift))]? with
        | none => rfl
        | some ch =>
          simp only [Option.bind_eq_bind, Option.bind_some, ih]
          cases doUpdate c u d ch k hash (shift + c.B) () with
          | none => rfl
          | some x =>
            obtain ⟨⟨r, ad⟩, _⟩ := x
            simp only [Option.map_some, Option.bind_some]
            cases Champ.copyInnerReplace nm dm vs cs (rank nm (bitOf c.W (c.idx hash shift))) r <;> rfl
      · split
        · cases vs[rank dm (bitOf c.W (c.idx hash shift))]? with
          | none => rfl
          | some x =>
            simp only [Option.bind_eq_bind, Option.bind_some]
            split
            · show _ = Option.map _ ((Champ.copyInnerReplaceValue nm dm vs cs (rank dm (bitOf c.W (c.idx hash shift))) (updG u k (some x))).bind _)
              cases Champ.copyInnerReplaceValue nm dm vs cs (rank dm (bitOf c.W (c.idx hash shift))) (updG u k (some x)) <;> rfl
            · simp only [Bool.false_eq_true, if_false]
              show _ = Option.map _ ((Champ.copyInnerReplaceMerged nm dm vs cs (bitOf c.W (c.idx hash shift)) (rank dm (bitOf c.W (c.idx hash shift))) (Champ.makeMerged c d (shift + c.B) (updG u k none) hash x (c.hash (c.key x)))).bind _)
              cases Champ.copyInnerReplaceMerged nm dm vs cs (bitOf c.W (c.idx hash shift)) (rank dm (bitOf c.W (c.idx hash shift))) (Champ.makeMerged c d (shift + c.B) (updG u k none) hash x (c.hash (c.key x))) <;> rfl
        · simp only [Bool.false_eq_true, if_false]
          show _ = Option.map _ ((Champ.copyInnerInsertValue nm dm vs cs (bitOf c.W (c.idx hash shift)) (updG u k none)).bind _)
          cases Champ.copyInnerInsertValue nm dm vs cs (bitOf c.W (c.idx hash shift)) (updG u k none) <;> rfl

theorem put_updateIfExists (u : Upd K T P Unit) (k : K) (d : Nat) : ∀ (n : c.N) (hash : BitVec 64) (shift : Nat),
    (put c true (updG u k) k d n hash shift).map (fun o => o.map Prod.fst) = (doUpdateIfExists c u d n k hash shift ()).map fun x => x.1 := by
  induction d with
  | zero =>
    intro n hash shift
    cases n with
    | inner => rfl
    | collision vs =>
      rw [put, doUpdateIfExists]
      cases hf : vs.findIdx? (fun x => c.eqv (c.key x) k) with
      | none => rfl
      | some pos =>
        obtain ⟨x, h1, _⟩ := findIdx?_split hf
        simp only [h1, Option.bind_eq_bind, Option.bind_some]
        show _ = Option.map _ ((Champ.copyCollisionReplace vs pos (updG u k (some x))).bind _)
        cases Champ.copyCollisionReplace (w := c.W) vs pos (updG u k (some x)) <;> rfl
  | succ d ih =>
    intro n hash shift
    cases n with
    | collision => rfl
    | inner nm dm vs cs =>
      rw [put, doUpdateIfExists]
      simp only []
      split
      · cases cs[rank nm (bitOf c.W (c.idx hash shift))]? with
        | none => rfl
        | some ch =>
          simp only [Option.bind_eq_bind, Option.bind_some]
          have := ih ch hash (shift + c.B)
          cases hp : put c true (updG u k) k d ch hash (shift + c.B) with
          | none =>
            rw [hp] at this
            cases hu : doUpdateIfExists c u d ch k hash (shift + c.B) () with
            | none => rfl
            | some y => rw [hu] at this; cases this
          | some x =>
            rw [hp] at this
            cases hu : doUpdateIfExists c u d ch k hash (shift + c.B) () with
            | none => rw [hu] at this; cases this
            | some y =>
              rw [hu] at this
              obtain ⟨y, yu⟩ := y
              simp only [Option.map_some, Option.some.injEq] at this
              subst this
              cases x with
              | none => rfl
              | some x =>
                obtain ⟨r, ad⟩ := x
                simp only [Option.map_some, Option.bind_some]
                cases Champ.copyInnerReplace nm dm vs cs (rank nm (bitOf c.W (c.idx hash shift))) r <;> rfl
      · split
        · cases vs[rank dm (bitOf c.W (c.idx hash shift))]? with
          | none => rfl
          | some x =>
            simp only [Option.bind_eq_bind, Option.bind_some]
            split
            · show _ = Option.map _ ((Champ.copyInnerReplaceValue nm dm vs cs (rank dm (bitOf c.W (c.idx hash shift))) (updG u k (some x))).bind _)
              cases Champ.copyInnerReplaceValue nm dm vs cs (rank dm (bitOf c.W (c.idx hash shift))) (updG u k (some x)) <;> rfl
            · rfl
        · rfl

/-! ### Well-formed trees, without the hashes -/

section
variable {w : Nat}

/-- more than one element -/
def Big : Node w T → Prop
  | .collision vs => 2 ≤ vs.length
  | .inner nm dm _ _ => nm ≠ 0#w ∨ 2 ≤ popcount dm

def Form : Nat → Node w T → Prop
  | 0, .collision vs => 2 ≤ vs.length
  | 0, .inner .. => False
  | _ + 1, .collision _ => False
  | d + 1, .inner nm dm vs Ns => (∀ i, (nm.getLsbD i && dm.getLsbD i) = false) ∧ vs.length = popcount dm ∧ Ns.length = popcount nm ∧ ∀ N ∈ Ns, Form d N ∧ Big N

theorem Form.shape : ∀ {d : Nat} {N : Node w T}, Form d N → Shape d N
  | 0, .collision _, _ => trivial
  | 0, .inner .., h => h.elim
  | _ + 1, .collision _, h => h.elim
  | d + 1, .inner _ _ _ _, h => fun N hN => Form.shape (h.2.2.2 N hN).1

end

variable {c}

theorem big_of_elems {d shift p : Nat} {N : c.N} (h : WF c d shift p N) (h2 : 2 ≤ (elems c d N).length) : Big N := by
  cases d with
  | zero =>
    cases N with
    | inner => exact h.elim
    | collision vs => exact h2
  | succ d =>
    cases N with
    | collision => exact h.elim
    | inner nm dm vs cs =>
      by_cases hn : nm = 0#c.W
      · right
        have hcs := h.2.2.1
        rw [hn, popcount_zero] at hcs
        rw [elems, List.eq_nil_of_length_eq_zero hcs, List.flatMap_nil, List.append_nil, h.2.1] at h2
        exact h2
      · exact .inl hn

theorem WF.form : ∀ {d shift p : Nat} {N : c.N}, WF c d shift p N → Form d N
  | 0, _, _, .collision _, h => h.1
  | 0, _, _, .inner .., h => h.elim
  | _ + 1, _, _, .collision _, h => h.elim
  | d + 1, shift, p, .inner nm dm vs cs, h => by
    obtain ⟨h1, h2, h3, h4, h5⟩ := h
    refine ⟨h1, h2, h3, ?_⟩
    intro N hN
    obtain ⟨i, hi⟩ := (mem_iff_sget h3 N).mp hN
    have := h5 i N hi
    exact ⟨WF.form this.1, big_of_elems this.1 this.2⟩

theorem shape_makeMerged (v1 v2 : T) (h1 h2 : BitVec 64) : ∀ (d shift : Nat), Shape d (Champ.makeMerged c d shift v1 h1 v2 h2)
  | 0, _ => trivial
  | d + 1, shift => by
    rw [Champ.makeMerged]
    split
    · intro N hN
      rw [List.mem_singleton] at hN
      rw [hN]
      exact shape_makeMerged v1 v2 h1 h2 d _
    · intro N hN
      cases hN

/-- an element of a list with others in place of one -/
theorem mem_splice {α : Type} {l : List α} {n m : Nat} {x : α} {P : α → Prop} (h : ∀ y ∈ l, P y) (hx : P x) : ∀ y ∈ l.take n ++ x :: l.drop m, P y := by
  intro y hy
  rcases List.mem_append.mp hy with hy | hy
  · exact h y (List.mem_of_mem_take hy)
  · rcases List.mem_cons.mp hy with rfl | hy
    · exact hx
    · exact h y (List.mem_of_mem_drop hy)

theorem mem_erase' {α : Type} {l : List α} {n m : Nat} {P : α → Prop} (h : ∀ y ∈ l, P y) : ∀ y ∈ l.take n ++ l.drop m, P y := by
  intro y hy
  rcases List.mem_append.mp hy with hy | hy
  · exact h y (List.mem_of_mem_take hy)
  · exact h y (List.mem_of_mem_drop hy)

/-! ### Rules for `put` -/

section
variable {ex : Bool} {g : Option T → T} {k : K} {d shift : Nat} {hash : BitVec 64} {nm dm : BitVec c.W} {vs : List T} {cs : List c.N}

theorem form_child (h : Form (d + 1) (.inner nm dm vs cs)) {i : Nat} (hn : nm.getLsbD i = true) : ∃ ch, cs[cnt nm i]? = some ch ∧ Form d ch ∧ Big ch := by
  have hlt : cnt nm i < cs.length := by rw [h.2.2.1]; exact cnt_lt_popcount hn
  exact ⟨cs[cnt nm i], List.getElem?_eq_getElem hlt, h.2.2.2 _ (List.getElem_mem hlt)⟩

theorem form_value (h : Form (d + 1) (.inner nm dm vs cs)) {i : Nat} (hd : dm.getLsbD i = true) : ∃ x, vs[cnt dm i]? = some x := by
  have hlt : cnt dm i < vs.length := by rw [h.2.1]; exact cnt_lt_popcount hd
  exact ⟨vs[cnt dm i], List.getElem?_eq_getElem hlt⟩

theorem put_child (h : Form (d + 1) (.inner nm dm vs cs)) (hn : nm.getLsbD (c.idx hash shift) = true) {ch : c.N} (hch : cs[cnt nm (c.idx hash shift)]? = some ch) :
    put c ex g k (d + 1) (.inner nm dm vs cs) hash shift =
      (put c ex g k d ch hash (shift + c.B)).map fun o => o.map fun x => (.inner nm dm vs (cs.set (cnt nm (c.idx hash shift)) x.1), x.2) := by
  have hi := idx_lt c hash shift
  rw [put]
  simp only []
  rw [rank_eq_cnt nm hi, if_pos ((and_bitOf_ne_zero hi).mpr hn), hch]
  simp only [Option.bind_eq_bind, Option.bind_some]
  cases put c ex g k d ch hash (shift + c.B) with
  | none => rfl
  | some o =>
    cases o with
    | none => rfl
    | some x =>
      obtain ⟨r, ad⟩ := x
      simp only [Option.bind_some, copyInnerReplace_eq h.2.2.1 (cnt_lt_popcount hn)]
      rfl

theorem put_value (h : Form (d + 1) (.inner nm dm vs cs)) (hn : nm.getLsbD (c.idx hash shift) = false) (hd : dm.getLsbD (c.idx hash shift) = true) {x : T}
    (hx : vs[cnt dm (c.idx hash shift)]? = some x) :
    put c ex g k (d + 1) (.inner nm dm vs cs) hash shift =
      if c.eqv (c.key x) k then some (some (.inner nm dm (vs.set (cnt dm (c.idx hash shift)) (g (some x))) cs, false))
      else if ex then some none
      else some (some (.inner (nm ||| bitOf c.W (c.idx hash shift)) (dm &&& ~~~ bitOf c.W (c.idx hash shift))
        (vs.take (cnt dm (c.idx hash shift)) ++ vs.drop (cnt dm (c.idx hash shift) + 1))
        (cs.take (cnt nm (c.idx hash shift)) ++ Champ.makeMerged c d (shift + c.B) (g none) hash x (c.hash (c.key x)) :: cs.drop (cnt nm (c.idx hash shift))), true)) := by
  have hi := idx_lt c hash shift
  rw [put]
  simp only []
  rw [if_neg (fun h => by rw [(and_bitOf_ne_zero hi).mp h] at hn; cases hn), if_pos ((and_bitOf_ne_zero hi).mpr hd), rank_eq_cnt dm hi, hx]
  simp only [Option.bind_eq_bind, Option.bind_some, copyInnerReplaceValue_eq h.2.1 h.2.2.1 (cnt_lt_popcount hd), copyInnerReplaceMerged_eq h.2.1 h.2.2.1 hi hd]
  split
  · rfl
  · split <;> rfl

theorem put_empty (h : Form (d + 1) (.inner nm dm vs cs)) (hn : nm.getLsbD (c.idx hash shift) = false) (hd : dm.getLsbD (c.idx hash shift) = false) :
    put c ex g k (d + 1) (.inner nm dm vs cs) hash shift =
      if ex then some none
      else some (some (.inner nm (dm ||| bitOf c.W (c.idx hash shift)) (vs.take (cnt dm (c.idx hash shift)) ++ g none :: vs.drop (cnt dm (c.idx hash shift))) cs, true)) := by
  have hi := idx_lt c hash shift
  rw [put]
  simp only []
  rw [if_neg (fun h => by rw [(and_bitOf_ne_zero hi).mp h] at hn; cases hn), if_neg (fun h => by rw [(and_bitOf_ne_zero hi).mp h] at hd; cases hd)]
  simp only [copyInnerInsertValue_eq h.2.1 h.2.2.1 hi]
  split <;> rfl

end

theorem put_shape {ex : Bool} {g : Option T → T} {k : K} : ∀ {d : Nat} {N : c.N} {hash : BitVec 64} {shift : Nat} {N' : c.N} {ad : Bool}, Form d N →
    put c ex g k d N hash shift = some (some (N', ad)) → Shape d N'
  | 0, .inner .., _, _, _, _, h, _ => h.elim
  | _ + 1, .collision _, _, _, _, _, h, _ => h.elim
  | 0, .collision vs, hash, shift, N', ad, h, hp => by
    rw [put] at hp
    cases hf : vs.findIdx? (fun x => c.eqv (c.key x) k) with
    | none =>
      rw [hf] at hp
      cases ex with
      | true => cases hp
      | false => cases hp; trivial
    | some pos =>
      obtain ⟨x, h1, _, h2, _⟩ := findIdx?_split hf
      rw [hf] at hp
      simp only [h1, Option.bind_eq_bind, Option.bind_some, copyCollisionReplace_eq h2] at hp
      cases hp; trivial
  | d + 1, .inner nm dm vs cs, hash, shift, N', ad, h, hp => by
    have hsh : ∀ N ∈ cs, Shape d N := fun N hN => (h.2.2.2 N hN).1.shape
    by_cases hn : nm.getLsbD (c.idx hash shift) = true
    · obtain ⟨ch, hch, hf, _⟩ := form_child h hn
      rw [put_child h hn hch] at hp
      cases hp1 : put c ex g k d ch hash (shift + c.B) with
      | none => rw [hp1] at hp; cases hp
      | some o =>
        rw [hp1] at hp
        cases o with
        | none => cases hp
        | some x =>
          obtain ⟨r, ad'⟩ := x
          cases hp
          intro N hN
          rcases List.mem_or_eq_of_mem_set hN with hN | rfl
          · exact hsh N hN
          · exact put_shape hf hp1
    · have hn := Bool.eq_false_iff.mpr hn
      by_cases hd : dm.getLsbD (c.idx hash shift) = true
      · obtain ⟨x, hx⟩ := form_value h hd
        rw [put_value h hn hd hx] at hp
        split at hp
        · cases hp; exact hsh
        · split at hp
          · cases hp
          · cases hp
            exact mem_splice hsh (shape_makeMerged _ _ _ _ d _)
      · rw [put_empty h hn (Bool.eq_false_iff.mpr hd)] at hp
        split at hp
        · cases hp
        · cases hp; exact hsh

/-- the key is in a collision node -/
def collHit (c : Cfg K T) (k : K) : (d : Nat) → c.N → (hash : BitVec 64) → (shift : Nat) → Bool
  | 0, .collision vs, _, _ => vs.any fun x => c.eqv (c.key x) k
  | d + 1, .inner nm _ _ cs, hash, shift =>
    if nm.getLsbD (c.idx hash shift) then
      match cs[cnt nm (c.idx hash shift)]? with
      | some ch => collHit c k d ch hash (shift + c.B)
      | none => false
    else false
  | _, _, _, _ => false

/-! ### Rules for `doSub` -/

section
variable {k : K} {d shift : Nat} {hash : BitVec 64} {nm dm : BitVec c.W} {vs : List T} {cs : List c.N}

/-- `do_sub` of a node with the child changed -/
def subChild (nm dm : BitVec c.W) (vs : List T) (cs : List c.N) (hash : BitVec 64) (shift : Nat) : SubResult c.N T → SubResult c.N T
  | .nothing => .nothing
  | .singleton x =>
    if dm = 0#c.W ∧ popcount nm = 1 ∧ shift > 0 then .singleton x
    else .tree (.inner (nm &&& ~~~ bitOf c.W (c.idx hash shift)) (dm ||| bitOf c.W (c.idx hash shift))
      (vs.take (cnt dm (c.idx hash shift)) ++ x :: vs.drop (cnt dm (c.idx hash shift)))
      (cs.take (cnt nm (c.idx hash shift)) ++ cs.drop (cnt nm (c.idx hash shift) + 1)))
  | .tree r => .tree (.inner nm dm vs (cs.set (cnt nm (c.idx hash shift)) r))

theorem doSub_child (h : Form (d + 1) (.inner nm dm vs cs)) (hn : nm.getLsbD (c.idx hash shift) = true) {ch : c.N} (hch : cs[cnt nm (c.idx hash shift)]? = some ch) :
    Champ.doSub c (d + 1) (.inner nm dm vs cs) k hash shift = (Champ.doSub c d ch k hash (shift + c.B)).map (subChild nm dm vs cs hash shift) := by
  have hi := idx_lt c hash shift
  rw [Champ.doSub]
  simp only []
  rw [rank_eq_cnt nm hi, if_pos ((and_bitOf_ne_zero hi).mpr hn), hch]
  simp only [Option.bind_eq_bind, Option.bind_some]
  cases Champ.doSub c d ch k hash (shift + c.B) with
  | none => rfl
  | some o =>
    cases o with
    | nothing => rfl
    | singleton x =>
      simp only [Option.bind_some, Option.map_some, copyInnerReplaceInline_eq h.2.1 h.2.2.1 hi hn, subChild]
      split <;> rfl
    | tree r =>
      simp only [Option.bind_some, copyInnerReplace_eq h.2.2.1 (cnt_lt_popcount hn)]
      rfl

theorem doSub_value (h : Form (d + 1) (.inner nm dm vs cs)) (hn : nm.getLsbD (c.idx hash shift) = false) (hd : dm.getLsbD (c.idx hash shift) = true) {x : T}
    (hx : vs[cnt dm (c.idx hash shift)]? = some x) :
    Champ.doSub c (d + 1) (.inner nm dm vs cs) k hash shift =
      if c.eqv (c.key x) k then
        if nm ≠ 0#c.W ∨ popcount dm > 2 then
          some (.tree (.inner nm (dm &&& ~~~ bitOf c.W (c.idx hash shift)) (vs.take (cnt dm (c.idx hash shift)) ++ vs.drop (cnt dm (c.idx hash shift) + 1)) cs))
        else if popcount dm = 2 then
          (vs[if cnt dm (c.idx hash shift) = 0 then 1 else 0]?).map fun y =>
            if shift > 0 then .singleton y else .tree (.inner 0#c.W (dm &&& ~~~ bitOf c.W (c.idx hash shift)) [y] [])
        else some (.tree emptyNode)
      else some .nothing := by
  have hi := idx_lt c hash shift
  rw [Champ.doSub]
  simp only []
  rw [if_neg (fun h => by rw [(and_bitOf_ne_zero hi).mp h] at hn; cases hn), if_pos ((and_bitOf_ne_zero hi).mpr hd), rank_eq_cnt dm hi, hx]
  simp only [Option.bind_eq_bind, Option.bind_some, copyInnerRemoveValue_eq h.2.1 h.2.2.1 hd]
  split
  · split
    · rfl
    · split
      · cases vs[if cnt dm (c.idx hash shift) = 0 then 1 else 0]? with
        | none => rfl
        | some y => simp only [Option.bind_some, Option.map_some]; split <;> rfl
      · rfl
  · rfl

theorem doSub_empty (hn : nm.getLsbD (c.idx hash shift) = false) (hd : dm.getLsbD (c.idx hash shift) = false) :
    Champ.doSub c (d + 1) (.inner nm dm vs cs) k hash shift = some .nothing := by
  have hi := idx_lt c hash shift
  rw [Champ.doSub]
  simp only []
  rw [if_neg (fun h => by rw [(and_bitOf_ne_zero hi).mp h] at hn; cases hn), if_neg (fun h => by rw [(and_bitOf_ne_zero hi).mp h] at hd; cases hd)]

end

theorem doSub_shape {k : K} : ∀ {d : Nat} {N : c.N} {hash : BitVec 64} {shift : Nat} {N' : c.N}, Form d N →
    Champ.doSub c d N k hash shift = some (.tree N') → Shape d N'
  | 0, .inner .., _, _, _, h, _ => h.elim
  | _ + 1, .collision _, _, _, _, h, _ => h.elim
  | 0, .collision vs, hash, shift, N', h, hp => by
    rw [Champ.doSub] at hp
    cases hf : vs.findIdx? (fun x => c.eqv (c.key x) k) with
    | none => rw [hf] at hp; cases hp
    | some pos =>
      obtain ⟨x, h1, _, h2, _⟩ := findIdx?_split hf
      rw [hf] at hp
      simp only [Option.bind_eq_bind, copyCollisionRemove_eq h2] at hp
      split at hp
      · cases hp; trivial
      · cases hx : vs[if pos = 0 then 1 else 0]? with
        | none => rw [hx] at hp; cases hp
        | some y => rw [hx] at hp; cases hp
  | d + 1, .inner nm dm vs cs, hash, shift, N', h, hp => by
    have hsh : ∀ N ∈ cs, Shape d N := fun N hN => (h.2.2.2 N hN).1.shape
    by_cases hn : nm.getLsbD (c.idx hash shift) = true
    · obtain ⟨ch, hch, hf, _⟩ := form_child h hn
      rw [doSub_child h hn hch] at hp
      cases hp1 : Champ.doSub c d ch k hash (shift + c.B) with
      | none => rw [hp1] at hp; cases hp
      | some o =>
        rw [hp1] at hp
        cases o with
        | nothing => cases hp
        | singleton x =>
          simp only [Option.map_some, subChild] at hp
          split at hp
          · cases hp
          · cases hp; exact mem_erase' hsh
        | tree r =>
          cases hp
          intro N hN
          rcases List.mem_or_eq_of_mem_set hN with hN | rfl
          · exact hsh N hN
          · exact doSub_shape hf hp1
    · have hn := Bool.eq_false_iff.mpr hn
      by_cases hd : dm.getLsbD (c.idx hash shift) = true
      · obtain ⟨x, hx⟩ := form_value h hd
        rw [doSub_value h hn hd hx] at hp
        split at hp
        · split at hp
          · cases hp; exact hsh
          · split at hp
            · cases hy : vs[if cnt dm (c.idx hash shift) = 0 then 1 else 0]? with
              | none => rw [hy] at hp; cases hp
              | some y =>
                rw [hy] at hp
                simp only [Option.map_some] at hp
                split at hp
                · cases hp
                · cases hp; intro N hN; cases hN
            · cases hp; intro N hN; cases hN
        · cases hp
      · rw [doSub_empty hn (Bool.eq_false_iff.mpr hd)] at hp
        cases hp

end ChampHeap
