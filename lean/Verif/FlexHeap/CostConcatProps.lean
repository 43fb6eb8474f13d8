import Verif.FlexHeap.CostConcat
import Verif.FlexHeap.CostProps
import Verif.FlexHeap.InsertEx

/-!
# What concatenation costs (C50)

Concatenating is not copying: what is allocated depends on the number of levels of the trees, not on the number of elements.
-/

namespace FlexHeap
open Mm Rrb VecHeap

section
variable {T : Type} {c : Cfg} {E : Env Dat T} {X : Elem T} {er et : Nat} {w w' : World T} {M : List (VecHeap.Spec.SObj T)}

/-- The concatenation `b` of objects `i` and `j` makes at most `k` events of kind `kd`: if the first `k` succeed, it does not throw, no
more of them happen, and it does what it does when nothing is to throw. -/
def BinAtMost (c : Cfg) (E : Env Dat T) (X : Elem T) (er et : Nat) (w : World T) (b : Bin) (i j : Nat) (kd : Kind) (k : Nat) : Prop :=
  ∀ n, k ≤ n → ∃ w' n', ccall c E X er et (some (kd, n)) (.two b i j) w = .ok w' () ∧ w'.st.fault = some (kd, n') ∧ n ≤ n' + k ∧
    ccall c E X er et none (.two b i j) w = .ok w'.calm ()

theorem wuses_honest {kd : Kind} {k n : Nat} {β : Type} {x : HM T (Vc × Bool)} {f : Vc × Bool → WM T β} (hx : Uses kd k x) (hh : Honest x) (h : k ≤ n)
    (hf : ∀ v, WUses kd (n - k) (f (v, false))) : WUses kd n ((lift x).bind f) := by
  have key : WUses kd n ((lift x).bind fun b => f (b.1, false)) := wuses_bind (wuses_lift hx) h fun b => hf _
  intro w m hw hm
  have h1 := hx w.st m hw (by omega)
  have h2 := key w m hw hm
  have e : ∀ (w : World T), (∀ s b, x w.st = .ok s b → b.2 = false) → ((lift x).bind fun b => f (b.1, false)) w = (lift x).bind f w := by
    intro w hb
    simp only [WM.bind, lift]
    cases hc : x w.st with
    | ok s b =>
      obtain ⟨v, b⟩ := b
      have := hb s _ hc
      simp only at this ⊢
      rw [this]
    | thrown _ => rfl
    | ub => rfl
  have h0 : ∀ s b, x w.st.calm = .ok s b → b.2 = false := by
    intro s b hc
    rcases hh w.st.calm rfl with h | h
    · rw [hc] at h; exact h
    · rw [hc] at h; cases h
  rw [e w, e w.calm h0] at h2
  · exact h2
  · intro s b hc
    rw [hc] at h1
    obtain ⟨_, _, _, h4⟩ := h1
    exact h0 _ _ h4

theorem wuses_changeBin (b : Bin) (i j : Nat) (h h' : Obj) : WUses .alloc (concatAmt c (levels c h.v.shift) (levels c h'.v.shift)) (changeBin c E b i j h h') := by
  unfold changeBin
  split
  · exact wuses_ret _
  cases b with
  | plus => exact wuses_ret _
  | appendTo => exact wuses_honest (uses_concatMutL c E _ _ _ _) (honest_concatMutL _ _ _ _) (Nat.le_refl _) fun v => wuses_bind (wuses_setVc _ _) (Nat.zero_le _) fun _ => wuses_pure fun _ => ⟨rfl, rfl, rfl⟩
  | prependTo => exact wuses_bind (wuses_lift (uses_concatMutR c E _ _ _ _)) (Nat.le_refl _) fun v => wuses_mono (wuses_setVc _ _) (Nat.zero_le _)
  | appendMove =>
    exact wuses_honest (uses_concatMutL c E _ _ _ _) (honest_concatMutL _ _ _ _) (Nat.le_refl _) fun v => wuses_bind (wuses_setVc _ _) (Nat.zero_le _) fun _ => by
      rw [if_neg Bool.false_ne_true]
      exact wuses_bind (wuses_lift (uses_fdrop c E _)) (Nat.zero_le _) fun _ => wuses_pure fun _ => ⟨rfl, rfl, rfl⟩
  | prependMove => exact wuses_bind (wuses_lift (uses_concatMutR c E _ _ _ _)) (Nat.le_refl _) fun v => wuses_mono (wuses_setVc _ _) (Nat.zero_le _)

/-- **C50**, partial: in place only as far as modelled, which for transients is with reference counting.  Concatenating objects with at most `l` and
`r` levels of inner nodes, in any of the five ways, makes at most `(l + r + 1)·(4·2^B + 8) + 2` allocations, however many elements
there are and whatever is shared with other objects.  This is so even where concatenation fails (F2, F5): with that many allocations
it does not throw, and what it does, also if it is undefined, is what it does when nothing is to throw. -/
theorem C50_bound_partial {b : Bin} {i j : Nat} {oi oj : Obj} (hi : w.objs[i]? = some oi) (hj : w.objs[j]? = some oj) {l r : Nat}
    (hl : levels c oi.v.shift ≤ l) (hr : levels c oj.v.shift ≤ r) {n : Nat} (hn : (l + r + 1) * (4 * 2 ^ c.B + 8) + 2 ≤ n) :
    (∃ w' n', ccall c E X er et (some (.alloc, n)) (.two b i j) w = .ok w' () ∧ w'.st.fault = some (.alloc, n') ∧ n ≤ n' + ((l + r + 1) * (4 * 2 ^ c.B + 8) + 2) ∧
      ccall c E X er et none (.two b i j) w = .ok w'.calm ()) ∨
    (ccall c E X er et (some (.alloc, n)) (.two b i j) w = .ub ∧ ccall c E X er et none (.two b i j) w = .ub) := by
  have hle : concatAmt c (levels c oi.v.shift) (levels c oj.v.shift) ≤ (l + r + 1) * (4 * 2 ^ c.B + 8) + 2 := concatAmt_mono c hl hr
  have h2 : Within .alloc (concatAmt c (levels c oi.v.shift) (levels c oj.v.shift)) n (ccall c E X er et (some (.alloc, n)) (.two b i j) w) (ccall c E X er et none (.two b i j) w) := by
    have hu : WUses .alloc (concatAmt c (levels c oi.v.shift) (levels c oj.v.shift))
        (if b = .plus ∨ (E.gc = true ∧ oi.kd = .value) then (lift (Fc.concat c E oi.v oj.v)).bind fun x => push ⟨.value, x, 0⟩ else changeBin c E b i j oi oj) := by
      split
      · exact wuses_bind (wuses_lift (uses_concat c E _ _)) (Nat.le_refl _) fun x => wuses_push _
      · exact wuses_changeBin b i j oi oj
    have h3 := hu { w with st := { w.st with fault := some (.alloc, n) } } n rfl (by omega)
    simp only [ccall, fstep, stepBin, withObj, hi, hj]
    split
    · split
      · exact h3
      · exact ⟨n, rfl, by omega, rfl⟩
    · exact ⟨n, rfl, by omega, rfl⟩
  cases hx : ccall c E X er et (some (.alloc, n)) (.two b i j) w with
  | ub => rw [hx] at h2; exact .inr ⟨rfl, h2⟩
  | thrown _ => rw [hx] at h2; exact h2.elim
  | ok w' u =>
    rw [hx] at h2
    obtain ⟨n', h3, h4, h5⟩ := h2
    exact .inl ⟨w', n', rfl, h3, by omega, h5⟩

/-- **C50**, partial (as `FOn` says).  Objects that programs make, when concatenation can be relied on: in particular it is never
undefined. -/
theorem C50_concat_partial (hB : 2 ≤ c.B) (hE : E.Fresh) (hne : er ≠ et) (h : CReached c E X er et w M) {b : Bin} {i j : Nat} {oi oj : Obj} (hi : w.objs[i]? = some oi) (hj : w.objs[j]? = some oj) {l r : Nat}
    (hl : levels c oi.v.shift ≤ l) (hr : levels c oj.v.shift ≤ r) (ho : FOn c X E.gc w none (.two b i j)) :
    BinAtMost c E X er et w b i j .alloc ((l + r + 1) * (4 * 2 ^ c.B + 8) + 2) := by
  intro n hn
  have h1 := ccall_out (X := X) hB hE (h.rel hB hE hne) none (.two b i j) trivial ho
  rcases C50_bound_partial (E := E) (X := X) (er := er) (et := et) hi hj hl hr (b := b) hn with h2 | h2
  · exact h2
  · rw [h2.2] at h1; exact h1.elim

end

namespace Ex

/-- the hypotheses of `C50_concat_partial`: a vector with a size table and two levels is joined with itself -/
example (gc : Bool) : BinAtMost c4 (exEnv Nat gc) exElem 1 2 (partsW gc) .plus 1 1 .alloc 122 := by
  have hl : ((partsW gc).objs[1]?).map (fun o => levels c4 o.v.shift) = some 2 := by cases gc <;> decide +kernel
  obtain ⟨o, ho, h2⟩ := Option.map_eq_some_iff.mp hl
  refine C50_concat_partial (l := 2) (r := 2) (by decide) (exEnv_fresh Nat gc) (by decide) (parts_reached gc) ho ho (by omega) (by omega) fun h h' h1 h2 => ?_
  exact ⟨(parts_small gc _ _ h2).1, (parts_small gc _ _ h2).2, by rw [if_pos (.inl rfl)]; exact fun _ _ h => by cases h⟩

/-- it makes six, as the seventh attempt shows -/
example : (List.range 9).map (fun n => match ccall c4 (exEnv Nat false) exElem 1 2 (some (.alloc, n)) (.two .plus 1 1) (partsW false) with | .ok w _ => w.st.fault.map Prod.snd | _ => none) =
    [none, none, none, none, none, none, some 0, some 1, some 2] := by decide +kernel

end Ex
end FlexHeap
