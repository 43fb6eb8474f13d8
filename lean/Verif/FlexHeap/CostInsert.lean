import Verif.FlexHeap.Depth
import Verif.FlexHeap.CostConcatProps

/-!
# What `push_front`, `insert` and `erase` cost (C55)

They are made of `take`, `drop`, `push_back` and concatenations, each of which costs no more than the levels of the trees allow.  What
has to be seen is that the trees that are made on the way are not deep either.
-/

namespace FlexHeap
open Mm Rrb VecHeap

variable {T β : Type} {c : Cfg} {E : Env Dat T} {X : Elem T} {er et : Nat} {w w' : World T}

/-- What is known of the objects: `some d`: it is a vector with at most `d` levels. -/
def Deep (c : Cfg) (os : List Obj) (F : List (Option Nat)) : Prop :=
  os.length = F.length ∧ ∀ (k : Nat) (d : Nat), F[k]? = some (some d) → ∃ h : Obj, os[k]? = some h ∧ h.kd = .value ∧ LevelsLe c d h.v

section
variable {os : List Obj} {F : List (Option Nat)}

theorem deep_push {d : Nat} {h : Obj} (hF : Deep c os F) (hk : h.kd = .value) (hd : LevelsLe c d h.v) : Deep c (os ++ [h]) (F ++ [some d]) := by
  obtain ⟨h1, h2⟩ := hF
  refine ⟨by simp [h1], fun k b' hk' => ?_⟩
  rcases Nat.lt_or_ge k F.length with hl | hl
  · rw [List.getElem?_append_left hl] at hk'
    obtain ⟨g, hg, h3⟩ := h2 k b' hk'
    exact ⟨g, by rw [List.getElem?_append_left (by omega)]; exact hg, h3⟩
  · rw [List.getElem?_append_right hl] at hk'
    have : k - F.length = 0 := by
      rcases Nat.eq_zero_or_pos (k - F.length) with h0 | h0
      · exact h0
      · rw [List.getElem?_eq_none (by simp; omega)] at hk'; cases hk'
    rw [this] at hk'
    simp at hk'
    subst hk'
    exact ⟨h, by rw [List.getElem?_append_right (by omega), show k - os.length = 0 by omega]; rfl, hk, hd⟩

theorem deep_tok {i t : Nat} (hF : Deep c os F) : Deep c (os.modify i fun h => { h with tok := t }) F := by
  obtain ⟨h1, h2⟩ := hF
  refine ⟨by simp [h1], fun k b hk => ?_⟩
  obtain ⟨g, hg, h3, h4⟩ := h2 k b hk
  rw [List.getElem?_modify, hg]
  by_cases hi : i = k
  · exact ⟨{ g with tok := t }, by simp [hi], h3, h4⟩
  · exact ⟨g, by simp [hi], h3, h4⟩

theorem deep_vc {i : Nat} {v : Vc} {d d' : Nat} (hF : Deep c os F) (hi : F[i]? = some (some d)) (hd : LevelsLe c d' v) : Deep c (os.modify i fun h => { h with v := v }) (F.set i (some d')) := by
  obtain ⟨h1, h2⟩ := hF
  refine ⟨by simp [h1], fun k b' hk => ?_⟩
  rw [List.getElem?_modify]
  by_cases hik : i = k
  · subst hik
    obtain ⟨g, hg, h3, h4⟩ := h2 i d hi
    rw [hg]
    rw [List.getElem?_set_self (List.getElem?_eq_some_iff.mp hi).1] at hk
    cases hk
    exact ⟨{ g with v := v }, by simp, h3, hd⟩
  · rw [List.getElem?_set_ne hik] at hk
    obtain ⟨g, hg, h3, h4⟩ := h2 k b' hk
    exact ⟨g, by rw [hg]; simp [hik], h3, h4⟩

theorem deep_erase {i : Nat} (hF : Deep c os F) : Deep c (os.eraseIdx i) (F.eraseIdx i) := by
  obtain ⟨h1, h2⟩ := hF
  refine ⟨by simp [List.length_eraseIdx, h1], fun k b hk => ?_⟩
  rw [List.getElem?_eraseIdx] at hk ⊢
  split
  · rename_i hl
    rw [if_pos hl] at hk
    exact h2 k b hk
  · rename_i hl
    rw [if_neg hl] at hk
    exact h2 _ b hk

theorem join_eq {i d : Nat} (h : F[i]?.join = some d) : F[i]? = some (some d) := by
  cases hi : F[i]? with
  | none => rw [hi] at h; cases h
  | some o => rw [hi] at h; cases h; rfl

/-- from `F` to `F'`, with at most `k` allocations -/
def Does (c : Cfg) (F : List (Option Nat)) (k : Nat) (x : WM T Unit) (F' : List (Option Nat)) : Prop :=
  Takes (Deep c · F) x (fun _ o => Deep c o F') ∧ ∀ w n, Deep c w.objs F → w.st.fault = some (.alloc, n) → k ≤ n → Within .alloc k n (x w) (x w.calm)

theorem does_known {i d k : Nat} {kd : Option VecHeap.Kd} {f : Obj → WM T Unit} {F' : List (Option Nat)} (hi : F[i]? = some (some d)) (hk : kd = none ∨ kd = some .value)
    (hf : ∀ h : Obj, h.kd = .value → LevelsLe c d h.v → Does c F k (f h) F') : Does c F k (withObj i kd f) F' := by
  refine ⟨takes_withObj (fun h w w' b' ⟨hF, hh, _⟩ e => ?_) (fun o hF hn => ?_) (fun o h hF hh hn => ?_), fun w n hF hw hn => ?_⟩
  · obtain ⟨g, hg, h1, h2⟩ := hF.2 i d hi
    cases hh.symm.trans hg
    exact (hf h h1 h2).1 w w' b' hF e
  · obtain ⟨g, hg, _⟩ := hF.2 i d hi
    cases hn.symm.trans hg
  · obtain ⟨g, hg, h1, _⟩ := hF.2 i d hi
    cases hh.symm.trans hg
    exact absurd (by rw [h1]; exact hk) hn
  · obtain ⟨g, hg, h1, h2⟩ := hF.2 i d hi
    have h3 := (hf g h1 h2).2 w n hF hw hn
    unfold withObj
    rw [show w.calm.objs = w.objs from rfl, hg]
    simp only [if_pos (show kd = none ∨ kd = some g.kd by rw [h1]; exact hk)]
    exact h3

/-- a computation and then a new vector -/
theorem does_push {x : HM T Vc} {d k : Nat} (hx : Ends x (LevelsLe c d)) (hu : Uses .alloc k x) (t : Nat) : Does c F k ((lift x).bind fun v => push ⟨.value, v, t⟩) (F ++ [some d]) :=
  ⟨takes_bind (takes_lift hx) fun v => takes_push fun o ho => deep_push ho.1 rfl ho.2, fun w n _ hw hn => wuses_bind (wuses_lift hu) (Nat.le_refl _) (fun v => wuses_push _) w n hw hn⟩

/-- what a part costs, and what it does to what is known; `none` if that is not enough -/
def cost (c : Cfg) (gc : Bool) (F : List (Option Nat)) : FCmd T → Option (Nat × List (Option Nat))
  | .one (.new .value) => some (0, F ++ [some 1])
  | .one (.copy i) => (F[i]?.join).map fun d => (0, F ++ [some d])
  | .one (.destroy i) => some (0, F.eraseIdx i)
  | .one (.apply i (.take _)) | .one (.apply i (.drop _)) => (F[i]?.join).map fun d => (2 * d + 3, F ++ [some d])
  | .one (.applyMove i (.push _)) => (F[i]?.join).map fun d => (2 * d + 3, if gc then F ++ [some (d + 1)] else F.set i (some (d + 1)))
  | .one (.applyMove i (.take _)) => (F[i]?.join).map fun d => (2 * d + 3, if gc then F ++ [some d] else F.set i (some d))
  | .two b i j =>
      (F[i]?.join).bind fun d => (F[j]?.join).bind fun d' =>
        if i = j ∨ ¬ (b = .appendTo ∨ b = .appendMove) then none
        else if gc then some (concatAmt c d d', F ++ [some (d + d' + 1)])
        else
          match b with
          | .appendTo => some (concatAmt c d d', F.set i (some (d + d' + 1)))
          | .appendMove => some (concatAmt c d d', (F.set i (some (d + d' + 1))).eraseIdx j)
          | _ => none
  | _ => none

theorem within_step {k n : Nat} {x : WM T Unit} (hx : WUses .alloc k x) {w : World T} {m : Nat} (hw : w.st.fault = some (.alloc, m)) (h : k ≤ n) (hm : n ≤ m) : Within .alloc n m (x w) (x w.calm) :=
  within_mono (hx w m hw (by omega)) h

theorem does_part {x : FCmd T} {F' : List (Option Nat)} {k : Nat} (hx : cost c E.gc F x = some (k, F')) : Does c F k (fstep c E X er et x) F' := by
  have hu : ∀ {d : Nat} {h : Obj} (o : FlexOp T), LevelsLe c d h.v → Uses .alloc (2 * d + 3) ((flexKit T c X).apply E er et h.v o) := fun o hl =>
    uses_mono ((flex_uses (X := X) (kd := .alloc) (by decide)).apply _ o) (by simp only [flexUses, amt]; have : levels c _ ≤ _ := hl; omega)
  have hm : ∀ {d : Nat} {h : Obj} (i : Nat) (o : FlexOp T), LevelsLe c d h.v → WUses .alloc (2 * d + 3) (inPlace (flexKit T c X) E er et i 0 h o) := fun i o hl =>
    wuses_mono (wuses_inPlace E er et (flex_uses (X := X) (kd := .alloc) (by decide)) i 0 _ o) (by simp only [flexUses, amt]; have : levels c _ ≤ _ := hl; omega)
  cases x with
  | two b i j =>
    simp only [cost, Option.bind_eq_some_iff] at hx
    obtain ⟨d, hi, d', hj, hx⟩ := hx
    have hi := join_eq hi
    have hj := join_eq hj
    split at hx
    · cases hx
    rename_i hne
    rw [not_or, Classical.not_not] at hne
    have hbk : b.kd = none ∨ b.kd = some VecHeap.Kd.value := by rcases hne.2 with rfl | rfl <;> exact .inl rfl
    show Does c F k (stepBin c E b i j) F'
    unfold stepBin
    refine does_known hi hbk fun h hk hl => does_known hj (.inr (by rw [hk])) fun h' hk' hl' => ?_
    have hle : concatAmt c (levels c h.v.shift) (levels c h'.v.shift) ≤ concatAmt c d d' := concatAmt_mono c hl hl'
    by_cases hg : E.gc = true
    · rw [if_pos hg] at hx
      cases hx
      rw [if_pos (.inr ⟨hg, hk⟩)]
      exact does_push (depth_concat hl hl') (uses_mono (uses_concat c E _ _) hle) 0
    · rw [if_neg hg] at hx
      have hcost : k = concatAmt c d d' := by
        cases b with
        | appendTo => cases hx; rfl
        | appendMove => cases hx; rfl
        | _ => cases hx
      rw [if_neg (by rintro (rfl | h) <;> simp_all)]
      refine ⟨?_, fun w n _ hw hn => within_step (wuses_changeBin b i j h h') hw (by omega) hn⟩
      cases b with
      | plus => cases hx
      | prependTo => cases hx
      | prependMove => cases hx
      | appendTo =>
        cases hx
        unfold changeBin
        rw [if_neg hne.1]
        refine takes_bind (takes_lift (depth_concatMutL hl hl' false h.tok)) fun x => takes_bind (takes_setVc (Q := fun _ o => Deep c o (F.set i (some (d + d' + 1)))) fun o ho => deep_vc ho.1 hi ho.2) fun _ w w' b hF e => ?_
        split at e
        · cases e
        · cases e; exact hF
      | appendMove =>
        cases hx
        unfold changeBin
        rw [if_neg hne.1]
        refine takes_bind (takes_lift (depth_concatMutL hl hl' true h.tok)) fun x => takes_bind (takes_setVc (Q := fun _ o => Deep c o (F.set i (some (d + d' + 1)))) fun o ho => deep_vc ho.1 hi ho.2) fun _ => ?_
        split
        · exact fun w w' b hF e => by cases e
        · refine takes_bind takes_any fun _ w w' b hF e => ?_
          cases e
          exact deep_erase hF
  | one x =>
    show Does c F k (step c (flexKit T c X) E er et x) F'
    cases x with
    | new kd =>
      cases kd with
      | transient => cases hx
      | value =>
        cases hx
        show Does c F 0 ((WM.ret 0).bind fun t => (lift (Vc.empty c E er et)).bind fun v => push ⟨.value, v, t⟩) _
        refine does_push ?_ (uses_empty c E er et) 0
        unfold Vc.empty
        exact ends_any fun _ => ends_any fun _ => ends_ret (Nat.le_of_eq (levels_BL c))
    | copy i =>
      simp only [cost, Option.map_eq_some_iff] at hx
      obtain ⟨d, hi, hx⟩ := hx
      cases hx
      refine does_known (join_eq hi) (.inl rfl) fun h hk hs => ?_
      rw [hk]
      refine ⟨takes_bind (Q := fun _ o => Deep c o F) (takes_ret fun _ h => h) fun t => takes_bind (Q := fun _ o => Deep c o F) (takes_ret fun _ h => h) fun t' => takes_bind (takes_setOwner (Q := fun _ o => Deep c o F) fun o ho => deep_tok ho) fun _ =>
        takes_bind (takes_lift (Q := fun v => v = h.v) ?_) fun v => takes_push fun o ho => deep_push ho.1 rfl ?_, fun w n _ hw hn => ?_⟩
      · unfold Vc.copy
        exact ends_any fun _ => ends_ret rfl
      · show LevelsLe c d v
        rw [ho.2]
        exact hs
      · exact wuses_bind (k := 0) (wuses_ret _) (Nat.zero_le _) (fun _ => wuses_bind (k := 0) (wuses_ret _) (Nat.zero_le _) fun _ => wuses_bind (wuses_setOwner _ _) (Nat.zero_le _) fun _ =>
          wuses_bind (wuses_lift (uses_bind (uses_share E h.v) (Nat.le_refl _) fun _ => uses_ret _)) (Nat.zero_le _) fun _ => wuses_push _) w n hw hn
    | destroy i =>
      cases hx
      refine ⟨?_, fun w n hF hw hn => wuses_withObj hw hn fun h _ => wuses_bind (wuses_lift (uses_fdrop c E h.v)) (Nat.zero_le _) fun _ => wuses_pure fun _ => ⟨rfl, rfl, rfl⟩⟩
      show Takes _ (withObj i none _) _
      refine takes_withObj (fun h => takes_bind (Q := fun _ o => Deep c o F) (takes_pre (fun o ho => ho.1) takes_any) fun _ w w' b hF e => ?_) (fun o ho hn => ?_) fun o h _ _ hn => absurd (.inl rfl) hn
      · cases e
        exact deep_erase hF
      · rw [List.eraseIdx_of_length_le (by rw [← ho.1]; exact List.getElem?_eq_none_iff.mp hn)]
        exact ho
    | apply i o =>
      cases o with
      | take n =>
        simp only [cost, Option.map_eq_some_iff] at hx
        obtain ⟨d, hi, hx⟩ := hx
        cases hx
        exact does_known (join_eq hi) (.inr rfl) fun h hk hl => does_push (depth_take hl n) (hu (.take n) hl) 0
      | drop n =>
        simp only [cost, Option.map_eq_some_iff] at hx
        obtain ⟨d, hi, hx⟩ := hx
        cases hx
        exact does_known (join_eq hi) (.inr rfl) fun h hk hl => does_push (depth_dropN hl n) (hu (.drop n) hl) 0
      | _ => cases hx
    | applyMove i o =>
      cases o with
      | push x =>
        simp only [cost, Option.map_eq_some_iff] at hx
        obtain ⟨d, hi, hx⟩ := hx
        cases hx
        refine does_known (join_eq hi) (.inr rfl) fun h hk hl => ?_
        split
        · exact does_push (depth_pushBack hl x) (hu (.push x) hl) 0
        · refine ⟨?_, fun w n _ hw hn => hm i (.push x) hl w n hw hn⟩
          unfold inPlace
          refine takes_bind (takes_lift (Q := fun r => LevelsLe c (d + 1) r.1) (ends_bind (depth_pushBackMut hl 0 x) fun v hv => ends_ret hv)) fun r =>
            takes_bind (takes_setVc (Q := fun _ o => Deep c o (F.set i (some (d + 1)))) fun o ho => deep_vc ho.1 (join_eq hi) ho.2) fun _ => ?_
          split
          · exact takes_ret fun _ h => h
          · exact takes_any
      | take n =>
        simp only [cost, Option.map_eq_some_iff] at hx
        obtain ⟨d, hi, hx⟩ := hx
        cases hx
        refine does_known (join_eq hi) (.inr rfl) fun h hk hl => ?_
        split
        · exact does_push (depth_take hl n) (hu (.take n) hl) 0
        · refine ⟨?_, fun w m _ hw hn => hm i (.take n) hl w m hw hn⟩
          unfold inPlace
          refine takes_bind (takes_lift (Q := fun r => LevelsLe c d r.1) (ends_bind (depth_takeMut hl 0 n) fun v hv => ends_ret hv)) fun r =>
            takes_bind (takes_setVc (Q := fun _ o => Deep c o (F.set i (some d))) fun o ho => deep_vc ho.1 (join_eq hi) ho.2) fun _ => ?_
          split
          · exact takes_ret fun _ h => h
          · exact takes_any
      | _ => cases hx
    | _ => cases hx

/-- what all the parts cost -/
def costAll (c : Cfg) (gc : Bool) : List (Option Nat) → List (FCmd T) → Option Nat
  | _, [] => some 0
  | F, x :: xs => (cost c gc F x).bind fun r => (costAll c gc r.2 xs).map fun k => r.1 + k

theorem within_turn : ∀ (xs : List (FCmd T)) (F : List (Option Nat)) (k : Nat) (w : World T) (n : Nat), costAll c E.gc F xs = some k → Deep c w.objs F → w.st.fault = some (.alloc, n) → k ≤ n →
    Within .alloc k n (inTurn c E X er et xs w) (inTurn c E X er et xs w.calm)
  | [], F, k, w, n, hk, hF, hw, hn => ⟨n, hw, by omega, rfl⟩
  | x :: xs, F, k, w, n, hk, hF, hw, hn => by
    simp only [costAll, Option.bind_eq_some_iff, Option.map_eq_some_iff] at hk
    obtain ⟨⟨k1, F'⟩, h1, k2, h2, rfl⟩ := hk
    obtain ⟨ht, hu⟩ := does_part (X := X) (er := er) (et := et) h1
    simp only at hn ⊢
    have h3 := hu w n hF hw (by omega)
    simp only [inTurn, WM.bind]
    cases hx : fstep c E X er et x w with
    | thrown _ => rw [hx] at h3; exact h3.elim
    | ub =>
      rw [hx] at h3
      simp only [Within] at h3 ⊢
      rw [h3]
    | ok w1 b =>
      rw [hx] at h3
      obtain ⟨n1, h4, h5, h6⟩ := h3
      rw [h6]
      have h7 := within_turn xs F' k2 w1 n1 h2 (ht w w1 b hF hx) h4 (by omega)
      simp only
      cases hr : inTurn c E X er et xs w1 with
      | thrown _ => rw [hr] at h7; exact h7.elim
      | ub => rw [hr] at h7; exact h7
      | ok w2 b2 =>
        rw [hr] at h7
        obtain ⟨n2, h8, h9, h10⟩ := h7
        exact ⟨n2, h8, by omega, h10⟩

/-- a bound for all of them -/
theorem edit_cost {gc : Bool} {e : Edit T} {D : Nat} (hD : 1 ≤ D) (hi : F[e.obj]? = some (some D)) (hj : F[e.other]? = some (some D)) :
    ∃ k, costAll c gc F (e.parts gc F.length) = some k ∧ k ≤ (6 * D + 4) * (4 * 2 ^ c.B + 8) := by
  obtain ⟨h1, h3⟩ := List.getElem?_eq_some_iff.mp hi
  obtain ⟨h2, h4⟩ := List.getElem?_eq_some_iff.mp hj
  have e0 : ¬ F.length = e.obj := by omega
  have e1 : ∀ k, ¬ F.length + k = e.obj := by omega
  have e2 : ∀ k, ¬ e.obj = F.length + k := by omega
  have e3 : ¬ e.obj = F.length := by omega
  have hP : 12 ≤ perLevel c := by
    have := Nat.one_le_two_pow (n := c.B)
    unfold perLevel
    omega
  have hDP : D * 12 ≤ D * perLevel c := Nat.mul_le_mul_left _ hP
  show ∃ k, _ ∧ k ≤ (6 * D + 4) * perLevel c
  cases e <;> simp only [Edit.obj, Edit.other] at hi hj h1 h2 h3 h4 e0 e1 e2 e3 <;> cases gc <;> simp only [Edit.parts, if_true, if_false, Bool.false_eq_true] <;> (try split)
  all_goals
    simp [costAll, cost, List.getElem?_append, List.getElem?_set, List.getElem_append, List.getElem_set, List.set_append, List.eraseIdx_append, h1, h2, h3, h4, e0, e1, e2, e3]
    try (simp only [concatAmt, Nat.add_mul, Nat.mul_assoc, Nat.one_mul]; omega)

end

/-- **C55.**  `push_front`, `insert` and `erase`, of a value or of a vector, on lvalues and rvalues, with reference counting and under
the collector, with at most `D` levels of inner nodes in the vectors, make at most `(6·D + 4)·(4·2^B + 8)` allocations, however many
elements there are and whatever is shared; this is so in all states of memory.  With that many allocations they do not throw, and what
they do, also where it is undefined (F2, F5), is what they do when nothing is to throw. -/
theorem C55_bound {e : Edit T} {D : Nat} (hD : ∀ k ∈ [e.obj, e.other], ∀ o, w.objs[k]? = some o → levels c o.v.shift ≤ D) {n : Nat} (hn : (6 * D + 4) * (4 * 2 ^ c.B + 8) ≤ n) :
    (∃ w' n', ecall c E X er et (some (.alloc, n)) e w = .ok w' () ∧ w'.st.fault = some (.alloc, n') ∧ n ≤ n' + (6 * D + 4) * (4 * 2 ^ c.B + 8) ∧ ecall c E X er et none e w = .ok w'.calm ()) ∨
    (ecall c E X er et (some (.alloc, n)) e w = .ub ∧ ecall c E X er et none e w = .ub) := by
  have key : Within .alloc ((6 * D + 4) * (4 * 2 ^ c.B + 8)) n (ecall c E X er et (some (.alloc, n)) e w) (ecall c E X er et none e w) := by
    unfold ecall withObj
    simp only
    cases hi : w.objs[e.obj]? with
    | none => exact ⟨n, rfl, by omega, rfl⟩
    | some h =>
      simp only
      split
      · rename_i hk
        cases hj : w.objs[e.other]? with
        | none => exact ⟨n, rfl, by omega, rfl⟩
        | some h' =>
          simp only
          split
          · rename_i hk'
            have hl := hD e.obj (by simp) h hi
            have hl' := hD e.other (by simp) h' hj
            let fl : Obj → Option Nat := fun o => if o.kd = .value ∧ levels c o.v.shift ≤ D then some D else none
            have hF : Deep c w.objs (w.objs.map fl) := by
              refine ⟨by simp, fun k d hk => ?_⟩
              rw [List.getElem?_map, Option.map_eq_some_iff] at hk
              obtain ⟨o, ho, hb⟩ := hk
              by_cases hv : o.kd = .value ∧ levels c o.v.shift ≤ D
              · simp only [fl, if_pos hv, Option.some.injEq] at hb
                subst hb
                exact ⟨o, ho, hv.1, hv.2⟩
              · simp only [fl, if_neg hv] at hb
                cases hb
            have fact : ∀ (k : Nat) (o : Obj), w.objs[k]? = some o → (some VecHeap.Kd.value = none ∨ some VecHeap.Kd.value = some o.kd) → levels c o.v.shift ≤ D → (w.objs.map fl)[k]? = some (some D) := by
              intro k o ho hk hl
              have hv : o.kd = .value := by
                rcases hk with hk | hk
                · cases hk
                · exact (Option.some.inj hk).symm
              rw [List.getElem?_map, ho]
              simp only [fl, Option.map_some, if_pos (And.intro hv hl)]
            obtain ⟨k, h1, h2⟩ := edit_cost (T := T) (c := c) (gc := E.gc) (e := e) (Nat.le_trans (levels_pos c _) hl) (fact _ h hi hk hl) (fact _ h' hj hk' hl')
            rw [List.length_map] at h1
            have h3 := within_turn (X := X) (er := er) (et := et) _ _ k { w with st := { w.st with fault := some (.alloc, n) } } n h1 hF rfl (by omega)
            have h4 := within_mono h3 h2
            rw [show World.calm { w with st := { w.st with fault := some (Kind.alloc, n) } } = { w with st := { w.st with fault := none } } from rfl] at h4
            unfold together
            cases hr : inTurn c E X er et (e.parts E.gc w.objs.length) { w with st := { w.st with fault := some (Kind.alloc, n) } } with
            | thrown _ => rw [hr] at h4; exact h4.elim
            | ub =>
              rw [hr] at h4
              simp only [Within] at h4 ⊢
              rw [h4]
            | ok w' b =>
              rw [hr] at h4
              obtain ⟨n', h5, h6, h7⟩ := h4
              rw [h7]
              exact ⟨n', h5, h6, rfl⟩
          · exact ⟨n, rfl, by omega, rfl⟩
      · exact ⟨n, rfl, by omega, rfl⟩
  cases hx : ecall c E X er et (some (.alloc, n)) e w with
  | ub => rw [hx] at key; exact .inr ⟨rfl, key⟩
  | thrown _ => rw [hx] at key; exact key.elim
  | ok w' u =>
    rw [hx] at key
    obtain ⟨n', h3, h4, h5⟩ := key
    exact .inl ⟨w', n', rfl, h3, h4, h5⟩

/-- **C55**, for objects that programs make, when the vectors are not too large for 32-bit shifts (F5): with that many allocations they
end, with the right list and all other objects as they were. -/
theorem C55_cheap (hB : 2 ≤ c.B) (hBL : c.BL < 32) (hE : E.Fresh) (hne : er ≠ et) {M : List (VecHeap.Spec.SObj T)} (h : CReached c E X er et w M) {e : Edit T} {l l' : List T}
    (hi : M[e.obj]? = some ⟨.value, l⟩) (hj : M[e.other]? = some ⟨.value, l'⟩) (hs : ∀ k ∈ [e.obj, e.other], ∀ o, w.objs[k]? = some o → Small o.v)
    (hr : ∀ i p q, e = .eraseRangeRv i p q → E.gc = false) {D : Nat} (hD : ∀ k ∈ [e.obj, e.other], ∀ o, w.objs[k]? = some o → levels c o.v.shift ≤ D) {n : Nat} (hn : (6 * D + 4) * (4 * 2 ^ c.B + 8) ≤ n) :
    ∃ w' n' M', ecall c E X er et (some (.alloc, n)) e w = .ok w' () ∧ w'.st.fault = some (.alloc, n') ∧ n ≤ n' + (6 * D + 4) * (4 * 2 ^ c.B + 8) ∧
      M' = (if Spec.editsIn E.gc e then M.set e.obj ⟨.value, Spec.editList e l l'⟩ else M ++ [⟨.value, Spec.editList e l l'⟩]) ∧ FShows c X w'.calm M' := by
  obtain ⟨w0, M', h1, h2, _, h3, _⟩ := C47_no_fault hB hBL hE hne h hi hj hs hr
  rcases C55_bound (E := E) (X := X) (er := er) (et := et) (e := e) hD hn with ⟨w', n', h4, h5, h6, h7⟩ | h4
  · rw [h7] at h1
    cases h1
    exact ⟨w', n', M', h4, h5, h6, h2, h3⟩
  · rw [h4.2] at h1; cases h1

end FlexHeap
