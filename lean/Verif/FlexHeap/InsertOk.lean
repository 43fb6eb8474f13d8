import Verif.FlexHeap.Insert

/-!
# When `push_front`, `insert` and `erase` can be relied on (C47)

If nothing throws, it is enough that the vectors are not too large for 32-bit shifts (F5).
-/

namespace FlexHeap
open Mm Rrb VecHeap

section ends
variable {T β δ : Type} {c : Cfg} {E : Env Dat T} {X : Elem T} {er et : Nat}

/-- what holds of a result, if there is one -/
def Ends (x : HM T β) (P : β → Prop) : Prop := ∀ s s' b, x s = .ok s' b → P b

theorem ends_ret {b : β} {P : β → Prop} (h : P b) : Ends (M.ret b : HM T β) P := fun s s' b' e => by cases e; exact h

theorem ends_undef {P : β → Prop} : Ends (undef : HM T β) P := fun s s' b e => by cases e

theorem ends_bind {x : HM T β} {f : β → HM T δ} {P : β → Prop} {Q : δ → Prop} (hx : Ends x P) (hf : ∀ b, P b → Ends (f b) Q) : Ends (x.bind f) Q := by
  intro s s' b' e
  unfold M.bind at e
  cases hr : x s with
  | ok s1 b => rw [hr] at e; exact hf b (hx s s1 b hr) s1 s' b' e
  | thrown s1 => rw [hr] at e; cases e
  | ub => rw [hr] at e; cases e

theorem ends_any {x : HM T β} {f : β → HM T δ} {Q : δ → Prop} (hf : ∀ b, Ends (f b) Q) : Ends (x.bind f) Q :=
  ends_bind (P := fun _ => True) (fun _ _ _ _ => trivial) fun b _ => hf b

theorem ends_ite {p : Prop} [Decidable p] {x y : HM T β} {Q : β → Prop} (hx : Ends x Q) (hy : Ends y Q) : Ends (if p then x else y) Q := by
  split
  · exact hx
  · exact hy

theorem ends_guard {x : HM T β} {y : HM T Unit} {Q : β → Prop} (hx : Ends x Q) : Ends (x.guard y) Q := by
  intro s s' b e
  unfold M.guard at e
  cases hr : x s with
  | ok s1 b1 => rw [hr] at e; cases e; exact hx s _ _ hr
  | thrown s1 => rw [hr] at e; simp only at e; split at e <;> cases e
  | ub => rw [hr] at e; cases e

theorem ends_liftO {o : Option β} {P : β → Prop} (h : ∀ b, o = some b → P b) : Ends (liftO o : HM T β) P := by
  cases o with
  | none => exact fun s s' b e => by cases e
  | some b => exact fun s s' b' e => by cases e; exact h _ rfl

theorem ends_maybeRel (p s z : Nat) : Ends (maybeRel p s z : HM T RShp) (fun sh => sh.shift = s) := by
  unfold maybeRel
  refine ends_any fun r => ?_
  cases r with
  | none => exact ends_ret rfl
  | some t => exact ends_any fun _ => ends_ret rfl

theorem kidFull_shift (s : Nat) : (RShp.reg (Shp.kidFull c s)).shift ≤ s := by
  unfold Shp.kidFull
  split
  · exact Nat.zero_le _
  · exact Nat.sub_le _ _

theorem subRegular_shift {s z i o : Nat} {x : Shp × Nat} (h : subRegular c s z i o = some x) : (RShp.reg x.1).shift ≤ s := by
  unfold subRegular at h
  cases hl : Pos.shl32 o s with
  | none => rw [hl] at h; cases h
  | some l =>
    rw [hl] at h
    cases h
    simp only
    split
    · exact kidFull_shift s
    · split
      · exact Nat.zero_le _
      · exact Nat.sub_le _ _

theorem ends_subTowards (p : Nat) (sh : RShp) (i k : Nat) : Ends (subTowards c p sh i k : HM T (Nat × RShp × Nat)) (fun q => q.2.1.shift ≤ sh.shift) := by
  unfold subTowards
  cases sh with
  | reg sh =>
    refine ends_bind (P := fun x => (RShp.reg x.1).shift ≤ (RShp.reg sh).shift) (ends_liftO fun x hx => ?_) fun x hx => ends_any fun q => ends_ret hx
    cases sh with
    | reg s z => exact subRegular_shift hx
    | regSub s z => exact subRegular_shift hx
    | full s => cases hx; exact kidFull_shift s
    | leaf => cases hx
    | leafSub => cases hx
    | fullLeaf => cases hx
  | rel s sz =>
    show Ends (relTowards c p s sz i k) _
    unfold relTowards
    refine ends_any fun b => ends_any fun e => ends_any fun q => ends_bind (P := fun sh => sh.shift ≤ s) ?_ fun sh h => ends_ret h
    unfold kidRel
    refine ends_ite (ends_ret (Nat.zero_le _)) fun st st' b' e => ?_
    rw [ends_maybeRel _ _ _ st st' b' e]
    exact Nat.sub_le _ _

theorem ends_sliceLeftR (own : Option Nat) : ∀ (L : Nat) (mu co : Bool) (p : Nat) (sh : RShp) (i : Nat), Ends (sliceLeftR c E X own mu co L p sh i) (fun r => r.1 ≤ sh.shift)
  | 0, mu, co, p, .reg sh, i => by
    unfold sliceLeftR
    refine ends_ite ?_ ends_undef
    unfold sliceLeafLeft
    exact ends_any fun _ => ends_any fun _ => ends_ite (ends_any fun _ => ends_any fun _ => ends_ret (Nat.zero_le _)) (ends_any fun _ => ends_any fun _ => ends_ret (Nat.zero_le _))
  | 0, mu, co, p, .rel s sz, i => ends_undef
  | L + 1, mu, co, p, sh, i => by
    unfold sliceLeftR
    refine ends_any fun idx => ends_any fun b => ends_any fun lsz => ends_any fun csz => ends_ite ?_ ?_
    · refine ends_bind (ends_subTowards p sh i idx) fun q hq => ends_bind (ends_sliceLeftR own L b co q.1 q.2.1 q.2.2) fun r hr => ends_any fun _ => ends_ret (Nat.le_trans hr hq)
    · refine ends_any fun n => ends_guard (ends_any fun q => ends_any fun r => ?_)
      unfold sliceFill
      exact ends_any fun _ => ends_any fun _ => ends_any fun _ => ends_any fun _ => ends_any fun _ => ends_any fun _ => ends_any fun _ => ends_any fun _ => ends_ret (Nat.le_refl _)

/-- 32-bit sizes and shifts -/
def Small (v : Vc) : Prop := v.size ≤ 2 ^ 32 ∧ v.shift < 32

theorem ends_dropN (hBL : c.BL < 32) {v : Vc} (hv : Small v) (n : Nat) : Ends (Fc.dropN c E X er et v n) Small := by
  obtain ⟨h1, h2⟩ := hv
  have hs : v.size - n ≤ 2 ^ 32 := Nat.le_trans (Nat.sub_le _ _) h1
  unfold Fc.dropN
  refine ends_ite (ends_any fun _ => ends_ret ⟨h1, h2⟩) (ends_ite ?_ (ends_any fun o => ends_ite ?_ (ends_ite ?_ ?_)))
  · unfold Vc.empty
    exact ends_any fun _ => ends_any fun _ => ends_ret ⟨Nat.zero_le _, hBL⟩
  · exact ends_any fun _ => ends_any fun _ => ends_ret ⟨hs, hBL⟩
  · exact ends_any fun _ => ends_any fun _ => ends_ret ⟨hs, hBL⟩
  · refine ends_bind (ends_maybeRel v.root v.shift o) fun sh hsh => ends_bind (ends_sliceLeftR none (levels c v.shift) false true v.root sh n) fun r hr => ends_any fun _ => ends_ret ⟨hs, ?_⟩
    exact Nat.lt_of_le_of_lt (hsh ▸ hr) h2

end ends

section
variable {T β δ : Type} {c : Cfg} {E : Env Dat T} {X : Elem T} {er et : Nat} {w w' : World T}

/-- What is known of the objects: `some b`: it is a vector, and if `b`, it is not too large. -/
def Fits (os : List Obj) (F : List (Option Bool)) : Prop :=
  os.length = F.length ∧ ∀ (k : Nat) (b : Bool), F[k]? = some (some b) → ∃ h : Obj, os[k]? = some h ∧ h.kd = .value ∧ (b = true → Small h.v)

/-- from `P` to `Q` -/
def Takes (P : List Obj → Prop) (x : WM T β) (Q : β → List Obj → Prop) : Prop := ∀ w w' b, P w.objs → x w = .ok w' b → Q b w'.objs

theorem takes_ret {P : List Obj → Prop} {Q : β → List Obj → Prop} {b : β} (h : ∀ o, P o → Q b o) : Takes (T := T) P (WM.ret b) Q :=
  fun w w' b hp e => by cases e; exact h _ hp

theorem takes_bind {P : List Obj → Prop} {Q : β → List Obj → Prop} {R : δ → List Obj → Prop} {x : WM T β} {f : β → WM T δ} (hx : Takes P x Q) (hf : ∀ b, Takes (Q b) (f b) R) : Takes P (x.bind f) R := by
  intro w w' b' hp e
  unfold WM.bind at e
  cases hr : x w with
  | ok w1 b => rw [hr] at e; exact hf b w1 w' b' (hx w w1 b hp hr) e
  | thrown w1 => rw [hr] at e; cases e
  | ub => rw [hr] at e; cases e

theorem takes_lift {P : List Obj → Prop} {x : HM T β} {Q : β → Prop} (hx : Ends x Q) : Takes P (lift x) (fun b o => P o ∧ Q b) := by
  intro w w' b' hp e
  unfold lift at e
  cases hr : x w.st with
  | ok s b => rw [hr] at e; cases e; exact ⟨hp, hx _ _ _ hr⟩
  | thrown s => rw [hr] at e; cases e
  | ub => rw [hr] at e; cases e

theorem takes_any {P : List Obj → Prop} {x : HM T β} : Takes P (lift x) (fun _ o => P o) := by
  intro w w' b' hp e
  exact (takes_lift (Q := fun _ => True) (fun _ _ _ _ => trivial) w w' b' hp e).1

theorem takes_push {P : List Obj → Prop} {Q : Unit → List Obj → Prop} {h : Obj} (hQ : ∀ o, P o → Q () (o ++ [h])) : Takes (T := T) P (push h) Q :=
  fun w w' b hp e => by cases e; exact hQ _ hp

theorem takes_setVc {P : List Obj → Prop} {Q : Unit → List Obj → Prop} {i : Nat} {v : Vc} (hQ : ∀ o, P o → Q () (o.modify i fun h => { h with v := v })) : Takes (T := T) P (setVc i v) Q :=
  fun w w' b hp e => by cases e; exact hQ _ hp

theorem takes_setOwner {P : List Obj → Prop} {Q : Unit → List Obj → Prop} {i t : Nat} (hQ : ∀ o, P o → Q () (o.modify i fun h => { h with tok := t })) : Takes (T := T) P (setOwner i t) Q :=
  fun w w' b hp e => by cases e; exact hQ _ hp

theorem takes_withObj {P : List Obj → Prop} {Q : Unit → List Obj → Prop} {i : Nat} {kd : Option VecHeap.Kd} {f : Obj → WM T Unit}
    (hf : ∀ h, Takes (fun o => P o ∧ o[i]? = some h ∧ (kd = none ∨ kd = some h.kd)) (f h) Q) (hn : ∀ o, P o → o[i]? = none → Q () o)
    (hk : ∀ o h, P o → o[i]? = some h → ¬ (kd = none ∨ kd = some h.kd) → Q () o) : Takes P (withObj i kd f) Q := by
  intro w w' b hp e
  unfold withObj at e
  split at e
  · rename_i h hh
    split at e
    · rename_i hkd
      exact hf h w w' b ⟨hp, hh, hkd⟩ e
    · rename_i hkd
      cases e
      exact hk _ _ hp hh hkd
  · rename_i hh
    cases e
    exact hn _ hp hh

theorem takes_pre {P P' : List Obj → Prop} {Q : β → List Obj → Prop} {x : WM T β} (h : ∀ o, P o → P' o) (hx : Takes P' x Q) : Takes P x Q :=
  fun w w' b hp e => hx w w' b (h _ hp) e

variable {os : List Obj} {F : List (Option Bool)}

theorem fits_push {b : Bool} {h : Obj} (hF : Fits os F) (hk : h.kd = .value) (hb : b = true → Small h.v) : Fits (os ++ [h]) (F ++ [some b]) := by
  obtain ⟨h1, h2⟩ := hF
  refine ⟨by simp [h1], fun k b' hk' => ?_⟩
  rcases Nat.lt_or_ge k F.length with hl | hl
  · rw [List.getElem?_append_left hl] at hk'
    obtain ⟨g, hg, h3⟩ := h2 k b' hk'
    exact ⟨g, by rw [List.getElem?_append_left (by omega)]; exact hg, h3⟩
  · rw [List.getElem?_append_right hl] at hk'
    have : k - F.length = 0 := by
      rcases Nat.eq_zero_or_pos (k - F.length) with h0 | h0
      · exact h0
      · rw [List.getElem?_eq_none (by simp; omega)] at hk'; cases hk'
    rw [this] at hk'
    simp at hk'
    subst hk'
    exact ⟨h, by rw [List.getElem?_append_right (by omega), show k - os.length = 0 by omega]; rfl, hk, hb⟩

theorem fits_tok {i t : Nat} (hF : Fits os F) : Fits (os.modify i fun h => { h with tok := t }) F := by
  obtain ⟨h1, h2⟩ := hF
  refine ⟨by simp [h1], fun k b hk => ?_⟩
  obtain ⟨g, hg, h3, h4⟩ := h2 k b hk
  rw [List.getElem?_modify, hg]
  by_cases hi : i = k
  · exact ⟨{ g with tok := t }, by simp [hi], h3, h4⟩
  · exact ⟨g, by simp [hi], h3, h4⟩

theorem fits_vc {i : Nat} {v : Vc} {b : Bool} (hF : Fits os F) (hi : F[i]? = some (some b)) : Fits (os.modify i fun h => { h with v := v }) (F.set i (some false)) := by
  obtain ⟨h1, h2⟩ := hF
  refine ⟨by simp [h1], fun k b' hk => ?_⟩
  rw [List.getElem?_modify]
  by_cases hik : i = k
  · subst hik
    obtain ⟨g, hg, h3, h4⟩ := h2 i b hi
    rw [hg]
    rw [List.getElem?_set_self (List.getElem?_eq_some_iff.mp hi).1] at hk
    cases hk
    exact ⟨{ g with v := v }, by simp, h3, fun h => by cases h⟩
  · rw [List.getElem?_set_ne hik] at hk
    obtain ⟨g, hg, h3, h4⟩ := h2 k b' hk
    exact ⟨g, by rw [hg]; simp [hik], h3, h4⟩

theorem fits_erase {i : Nat} (hF : Fits os F) : Fits (os.eraseIdx i) (F.eraseIdx i) := by
  obtain ⟨h1, h2⟩ := hF
  refine ⟨by simp [List.length_eraseIdx, h1], fun k b hk => ?_⟩
  rw [List.getElem?_eraseIdx] at hk ⊢
  split
  · rename_i hl
    rw [if_pos hl] at hk
    exact h2 k b hk
  · rename_i hl
    rw [if_neg hl] at hk
    exact h2 _ b hk

/-- what a part does to what is known; `none` if that is not enough -/
def after (gc : Bool) (F : List (Option Bool)) : FCmd T → Option (List (Option Bool))
  | .one (.new .value) => some (F ++ [some true])
  | .one (.copy i) => (F[i]?.join).map fun b => F ++ [some b]
  | .one (.destroy i) => some (F.eraseIdx i)
  | .one (.apply i (.take _)) => (F[i]?.join).map fun _ => F ++ [some false]
  | .one (.apply i (.drop _)) => (F[i]?.join).bind fun b => if b then some (F ++ [some true]) else none
  | .one (.applyMove i (.push _)) | .one (.applyMove i (.take _)) =>
      (F[i]?.join).map fun _ => if gc then F ++ [some false] else F.set i (some false)
  | .two b i j =>
      (F[i]?.join).bind fun _ => (F[j]?.join).bind fun s =>
        if s = false ∨ i = j ∨ ¬ (b = .appendTo ∨ b = .appendMove) then none
        else if gc then some (F ++ [some false])
        else
          match b with
          | .appendTo => some (F.set i (some false))
          | .appendMove => some ((F.set i (some false)).eraseIdx j)
          | _ => none
  | _ => none

theorem join_some {i : Nat} {b : Bool} (h : F[i]?.join = some b) : F[i]? = some (some b) := by
  cases hi : F[i]? with
  | none => rw [hi] at h; cases h
  | some o => rw [hi] at h; cases h; rfl

theorem takes_inPlace {i e b} {h : Obj} {o : FlexOp T} (hi : F[i]? = some (some b)) : Takes (Fits · F) (inPlace (flexKit T c X) E er et i e h o) (fun _ o => Fits o (F.set i (some false))) := by
  unfold inPlace
  refine takes_bind takes_any fun r => takes_bind (takes_setVc (Q := fun _ o => Fits o (F.set i (some false))) fun o ho => fits_vc ho hi) fun _ => ?_
  split
  · exact takes_ret fun _ h => h
  · exact takes_any

theorem takes_known {i : Nat} {b : Bool} {kd : Option VecHeap.Kd} {f : Obj → WM T Unit} {Q : Unit → List Obj → Prop} (hi : F[i]? = some (some b)) (hk : kd = none ∨ kd = some .value)
    (hf : ∀ h : Obj, h.kd = .value → (b = true → Small h.v) → Takes (Fits · F) (f h) Q) : Takes (Fits · F) (withObj i kd f) Q := by
  refine takes_withObj (fun h w w' b' ⟨hF, hh, _⟩ e => ?_) (fun o hF hn => ?_) fun o h hF hh hn => ?_
  · obtain ⟨g, hg, h1, h2⟩ := hF.2 i b hi
    cases hh.symm.trans hg
    exact hf h h1 h2 w w' b' hF e
  · obtain ⟨g, hg, _⟩ := hF.2 i b hi
    cases hn.symm.trans hg
  · obtain ⟨g, hg, h1, _⟩ := hF.2 i b hi
    cases hh.symm.trans hg
    exact absurd (by rw [h1]; exact hk) hn

theorem takes_part (hBL : c.BL < 32) {x : FCmd T} {F' : List (Option Bool)} (hx : after E.gc F x = some F') : Takes (Fits · F) (fstep c E X er et x) (fun _ o => Fits o F') := by
  cases x with
  | two b i j =>
    simp only [after, Option.bind_eq_some_iff] at hx
    obtain ⟨b1, hi, s, hj, hx⟩ := hx
    have hi := join_some hi
    have hj := join_some hj
    split at hx
    · cases hx
    rename_i hne
    rw [not_or, not_or, Classical.not_not] at hne
    have hbk : b.kd = none ∨ b.kd = some VecHeap.Kd.value := by rcases hne.2.2 with rfl | rfl <;> exact .inl rfl
    show Takes _ (stepBin c E b i j) _
    unfold stepBin
    refine takes_known hi hbk fun h hk _ => takes_known hj (.inr (by rw [hk])) fun h' hk' _ => ?_
    by_cases hg : E.gc = true
    · rw [if_pos hg] at hx
      cases hx
      rw [if_pos (.inr ⟨hg, hk⟩)]
      exact takes_bind takes_any fun v => takes_push fun o ho => fits_push ho rfl fun h => by cases h
    · rw [if_neg hg] at hx
      cases b with
      | plus => cases hx
      | prependTo => cases hx
      | prependMove => cases hx
      | appendTo =>
        cases hx
        rw [if_neg (by simp [hg])]
        unfold changeBin
        rw [if_neg hne.2.1]
        refine takes_bind takes_any fun x => takes_bind (takes_setVc (Q := fun _ o => Fits o (F.set i (some false))) fun o ho => fits_vc ho hi) fun _ w w' b hF e => ?_
        split at e
        · cases e
        · cases e; exact hF
      | appendMove =>
        cases hx
        rw [if_neg (by simp [hg])]
        unfold changeBin
        rw [if_neg hne.2.1]
        refine takes_bind takes_any fun x => takes_bind (takes_setVc (Q := fun _ o => Fits o (F.set i (some false))) fun o ho => fits_vc ho hi) fun _ => ?_
        split
        · exact fun w w' b hF e => by cases e
        · refine takes_bind takes_any fun _ w w' b hF e => ?_
          cases e
          exact fits_erase hF
  | one x =>
    show Takes _ (step c (flexKit T c X) E er et x) _
    cases x with
    | new kd =>
      cases kd with
      | transient => cases hx
      | value =>
        cases hx
        show Takes _ ((WM.ret 0).bind fun t => (lift (Vc.empty c E er et)).bind fun v => push ⟨.value, v, t⟩) _
        refine takes_bind (Q := fun _ o => Fits o F) (takes_ret fun _ h => h) fun _ => takes_bind (takes_lift (Q := Small) ?_) fun v => takes_push fun o ho => fits_push ho.1 rfl fun _ => ho.2
        unfold Vc.empty
        exact ends_any fun _ => ends_any fun _ => ends_ret ⟨Nat.zero_le _, hBL⟩
    | copy i =>
      simp only [after, Option.map_eq_some_iff] at hx
      obtain ⟨b, hi, rfl⟩ := hx
      refine takes_known (join_some hi) (.inl rfl) fun h hk hs => ?_
      rw [hk]
      refine takes_bind (Q := fun _ o => Fits o F) (takes_ret fun _ h => h) fun t => takes_bind (Q := fun _ o => Fits o F) (takes_ret fun _ h => h) fun t' => takes_bind (takes_setOwner (Q := fun _ o => Fits o F) fun o ho => fits_tok ho) fun _ =>
        takes_bind (takes_lift (Q := fun v => v = h.v) ?_) fun v => takes_push fun o ho => fits_push ho.1 rfl fun hb => ?_
      · unfold Vc.copy
        exact ends_any fun _ => ends_ret rfl
      · show Small v
        rw [ho.2]
        exact hs hb
    | destroy i =>
      cases hx
      show Takes _ (withObj i none _) _
      refine takes_withObj (fun h => takes_bind (Q := fun _ o => Fits o F) (takes_pre (fun o ho => ho.1) takes_any) fun _ w w' b hF e => ?_) (fun o ho hn => ?_) fun o h _ _ hn => absurd (.inl rfl) hn
      · cases e
        exact fits_erase hF
      · rw [List.eraseIdx_of_length_le (by rw [← ho.1]; exact List.getElem?_eq_none_iff.mp hn)]
        exact ho
    | apply i o =>
      cases o with
      | take n =>
        simp only [after, Option.map_eq_some_iff] at hx
        obtain ⟨b, hi, rfl⟩ := hx
        exact takes_known (join_some hi) (.inr rfl) fun h hk hs => takes_bind takes_any fun v => takes_push fun o ho => fits_push ho rfl fun h => by cases h
      | drop n =>
        simp only [after, Option.bind_eq_some_iff] at hx
        obtain ⟨b, hi, hx⟩ := hx
        split at hx
        · rename_i hb
          cases hx
          exact takes_known (join_some hi) (.inr rfl) fun h hk hs => takes_bind (takes_lift (Q := Small) (ends_dropN hBL (hs hb) n)) fun v => takes_push fun o ho => fits_push ho.1 rfl fun _ => ho.2
        · cases hx
      | _ => cases hx
    | applyMove i o =>
      have key : (F[i]?.join).map (fun _ => if E.gc then F ++ [some false] else F.set i (some false)) = some F' := by
        cases o with
        | push => exact hx
        | take => exact hx
        | _ => cases hx
      simp only [Option.map_eq_some_iff] at key
      obtain ⟨b, hi, rfl⟩ := key
      refine takes_known (join_some hi) (.inr rfl) fun h hk hs => ?_
      split
      · exact takes_bind takes_any fun v => takes_push fun o ho => fits_push ho rfl fun h => by cases h
      · exact takes_inPlace (join_some hi)
    | _ => cases hx

theorem on_part {x : FCmd T} {F' : List (Option Bool)} (hF : Fits w.objs F) (hx : after E.gc F x = some F') : FOn c X E.gc w none x := by
  cases x with
  | two b i j =>
    simp only [after, Option.bind_eq_some_iff] at hx
    obtain ⟨b1, hi, s, hj, hx⟩ := hx
    intro h h' hh hh'
    obtain ⟨g, hg, h1, h2⟩ := hF.2 i b1 (join_some hi)
    obtain ⟨g', hg', h1', h2'⟩ := hF.2 j s (join_some hj)
    cases hh.symm.trans hg
    cases hh'.symm.trans hg'
    split at hx
    · cases hx
    rename_i hne
    rw [not_or] at hne
    have hs := h2' (by simpa using hne.1)
    refine ⟨hs.1, hs.2, ?_⟩
    split
    · exact fun _ n h => by cases h
    · rename_i hn
      have hg : E.gc = false := by
        cases hgc : E.gc with
        | false => rfl
        | true => exact absurd (.inr ⟨hgc, h1⟩) hn
      refine ⟨hg, ?_⟩
      rw [if_neg (by simp [hg])] at hx
      cases b with
      | appendTo => exact ⟨(fun _ h => by cases h), fun _ _ _ => rfl⟩
      | appendMove => exact ⟨(fun _ h => by cases h), fun _ _ _ => rfl⟩
      | _ => cases hx
  | one x =>
    cases x with
    | apply i o =>
      intro h hh
      cases o with
      | take n => exact fun h => by cases h
      | drop n =>
        simp only [after, Option.bind_eq_some_iff] at hx
        obtain ⟨b, hi, hx⟩ := hx
        obtain ⟨g, hg, h1, h2⟩ := hF.2 i b (join_some hi)
        cases hh.symm.trans hg
        split at hx
        · rename_i hb
          exact ⟨(h2 hb).1, (h2 hb).2, fun h => by cases h⟩
        · cases hx
      | _ => cases hx
    | applyMove i o =>
      intro h hh
      cases o with
      | push => exact fun _ => (fun _ h => by cases h)
      | take => exact fun _ => (fun _ h => by cases h)
      | _ => cases hx
    | new | copy | destroy => trivial
    | _ => cases hx

theorem plain_after {x : FCmd T} {gc : Bool} {F' : List (Option Bool)} (hx : after gc F x = some F') : Plain x := by
  cases x with
  | two => trivial
  | one x =>
    cases x with
    | new | copy | destroy | apply => trivial
    | applyMove i o =>
      cases o with
      | push | take => trivial
      | _ => cases hx
    | _ => cases hx

/-- what all the parts do to what is known -/
def afterAll (gc : Bool) : List (Option Bool) → List (FCmd T) → Bool
  | _, [] => true
  | F, x :: xs =>
      match after gc F x with
      | some F' => afterAll gc F' xs
      | none => false

theorem turn_on (hB : 0 < c.B) (hBL : c.BL < 32) (hE : E.Fresh) : ∀ (xs : List (FCmd T)) (F : List (Option Bool)) (w : World T), Fits w.objs F → w.st.fault = none → afterAll E.gc F xs = true → TurnOn c E X er et w xs
  | [], _, _, _, _, _ => trivial
  | x :: xs, F, w, hF, hw, ha => by
    unfold afterAll at ha
    cases hx : after E.gc F x with
    | none => rw [hx] at ha; cases ha
    | some F' =>
      rw [hx] at ha
      refine ⟨by rw [hw]; exact on_part hF hx, fun w' e => ?_⟩
      exact turn_on hB hBL hE xs F' w' (takes_part hBL hx w w' () hF e) (plain_still hB hE (plain_after hx) w hw w' () e) ha

theorem edit_on {gc : Bool} {e : Edit T} (hi : F[e.obj]? = some (some true)) (hj : F[e.other]? = some (some true)) (hr : ∀ i p q, e = .eraseRangeRv i p q → gc = false) :
    afterAll gc F (e.parts gc F.length) = true := by
  obtain ⟨h1, h3⟩ := List.getElem?_eq_some_iff.mp hi
  obtain ⟨h2, h4⟩ := List.getElem?_eq_some_iff.mp hj
  have e0 : ¬ F.length = e.obj := by omega
  have e1 : ∀ k, ¬ F.length + k = e.obj := by omega
  have e2 : ∀ k, ¬ e.obj = F.length + k := by omega
  have e3 : ¬ e.obj = F.length := by omega
  cases e <;> simp only [Edit.obj, Edit.other] at hi hj h1 h2 h3 h4 e0 e1 e2 e3 <;> cases gc <;> simp only [Edit.parts, if_true, if_false, Bool.false_eq_true] <;> (try split)
  case eraseRangeRv.true.isTrue => exact absurd (hr _ _ _ rfl) (by simp)
  case eraseRangeRv.true.isFalse => rfl
  all_goals
    simp [afterAll, after, List.getElem?_append, List.getElem?_set, List.getElem_append, List.getElem_set, List.set_append, List.eraseIdx_append, h1, h2, h3, h4, e0, e1, e2, e3]

/-- **C47.**  If nothing throws and the vectors are not too large for 32-bit shifts (F5), `push_front`, `insert` and `erase` end,
with the right list, all other objects as they were, and, when references are counted, exactly the right counts. -/
theorem C47_no_fault (hB : 2 ≤ c.B) (hBL : c.BL < 32) (hE : E.Fresh) (hne : er ≠ et) {M : List (VecHeap.Spec.SObj T)} (h : CReached c E X er et w M) {e : Edit T} {l l' : List T}
    (hi : M[e.obj]? = some ⟨.value, l⟩) (hj : M[e.other]? = some ⟨.value, l'⟩) (hs : ∀ k ∈ [e.obj, e.other], ∀ o, w.objs[k]? = some o → Small o.v)
    (hr : ∀ i p q, e = .eraseRangeRv i p q → E.gc = false) :
    ∃ w' M', ecall c E X er et none e w = .ok w' () ∧
      M' = (if Spec.editsIn E.gc e then M.set e.obj ⟨.value, Spec.editList e l l'⟩ else M ++ [⟨.value, Spec.editList e l l'⟩]) ∧
      CReached c E X er et w' M' ∧ FShows c X w' M' ∧ (E.gc = false → ∃ B, Exact er et w' B) := by
  obtain ⟨G, hG⟩ := h.rel hB hE hne
  have hlen := h.length hB hE hne
  let fl : Obj → Option Bool := fun o => if o.kd = .value then some (decide (o.v.size ≤ 2 ^ 32 ∧ o.v.shift < 32)) else none
  have hF : Fits w.objs (w.objs.map fl) := by
    refine ⟨by simp, fun k b hk => ?_⟩
    rw [List.getElem?_map, Option.map_eq_some_iff] at hk
    obtain ⟨o, ho, hb⟩ := hk
    by_cases hv : o.kd = .value
    · refine ⟨o, ho, hv, fun hb' => ?_⟩
      simp only [fl, if_pos hv, hb', Option.some.injEq, decide_eq_true_eq] at hb
      exact hb
    · simp only [fl, if_neg hv] at hb
      cases hb
  have key : ∀ k ∈ [e.obj, e.other], ∀ l, M[k]? = some ⟨.value, l⟩ → (w.objs.map fl)[k]? = some (some true) := by
    intro k hk l hl
    have hlt := (List.getElem?_eq_some_iff.mp hl).1
    have ho : w.objs[k]? = some w.objs[k] := List.getElem?_eq_getElem (by omega)
    rw [List.getElem?_map, ho]
    have hkG : k < G.length := by have := hG.loc.length_eq; omega
    have hg : G[k]? = some G[k] := List.getElem?_eq_getElem hkG
    obtain ⟨s, h2, h3⟩ := f2_get hG.loc hg
    cases hl.symm.trans h2
    have : w.objs[k] = G[k].obj := by
      have := hG.objs
      have h4 : w.objs[k]? = some G[k].obj := by rw [this, List.getElem?_map, hg]; rfl
      exact Option.some.inj (ho.symm.trans h4)
    have hv : w.objs[k].kd = .value := by rw [this, h3.1]; rfl
    show some (fl _) = _
    have h5 := hs k hk _ ho
    simp only [fl, if_pos hv, Option.some.injEq, decide_eq_true_eq]
    exact h5
  have on : EditOn c E X er et w none e := by
    refine ⟨turn_on (by omega) hBL hE _ (w.objs.map fl) _ hF rfl ?_, hr⟩
    have := edit_on (T := T) (gc := E.gc) (key _ (by simp) _ hi) (key _ (by simp) _ hj) hr
    rwa [List.length_map] at this
  have out := C47_edit_partial hB hE hne h none e on
  have hM : Spec.edit E.gc M e = if Spec.editsIn E.gc e then M.set e.obj ⟨.value, Spec.editList e l l'⟩ else M ++ [⟨.value, Spec.editList e l l'⟩] := by
    unfold Spec.edit VecHeap.Spec.on
    rw [hi, hj]
    rfl
  cases he : ecall c E X er et none e w with
  | ok w' u =>
    rw [he] at out
    exact ⟨w', _, rfl, hM, out, (out.rel hB hE hne).shows (flex_laws (by omega) hE), fun hg => (out.rel hB hE hne).exact hg⟩
  | thrown w' => rw [he] at out; exact absurd rfl out.1
  | ub => rw [he] at out; exact out.elim

end
end FlexHeap
