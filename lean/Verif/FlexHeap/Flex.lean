import Verif.VecHeap.Vector
import Verif.FlexHeap.Api
import Verif.FlexHeap.Ops2

/-!
# The operations of `flex_vector` obey the laws that programs need
-/

namespace FlexHeap
open Mm Rrb VecHeap

/-- operations of flexible vectors, on lists -/
def Spec.flexOps (T : Type) : VecHeap.Spec.Ops (FlexOp T) T where
  run
    | .push x, l => some (l ++ [x])
    | .set i x, l => if i < l.length then some (l.set i x) else none
    | .update i f, l => l[i]?.map fun x => l.set i (f.f x)
    | .take n, l => some (l.take n)
    | .drop n, l => some (l.drop n)
  left
    | .update i f, l => if f.user then l[i]?.map fun x => l.set i (f.left x) else none
    | _, _ => none

/-- Elements can be read unless the tree is too deep (F4).  In place, `push_back` and `take` may not fail to allocate a size
table (F24), and `drop` needs elements that can be moved to themselves (F23); `drop` needs sizes and depths that 32 bits hold
(F5). -/
def flexTerms (T : Type) (c : Cfg) (X : Elem T) : VecHeap.Spec.Terms (FlexOp T) where
  can v := c.deep = true ∨ v.shift < c.BL + c.B * 6
  ok
    | b, f, _, .push _ => b = true → NoTab f
    | b, f, _, .take _ => b = true → NoTab f
    | b, _, v, .drop _ => v.size ≤ 2 ^ 32 ∧ v.shift < 32 ∧ (b = true → X.Ok)
    | _, _, _, _ => True
  okPush := NoTab

section
variable {T : Type} {c : Cfg}

/-- a node tells how deep it is -/
theorem wf_level : ∀ {d d' : Nat} {N : Node T}, WF c d N → WF c d' N → d = d'
  | 0, 0, _, _, _ => rfl
  | 0, d' + 1, .leaf xs, _, h' => h'.elim
  | 0, d' + 1, .inner _ _, h, _ => h.elim
  | d + 1, 0, .leaf xs, h, _ => h.elim
  | d + 1, 0, .inner _ _, _, h' => h'.elim
  | d + 1, d' + 1, .leaf xs, h, _ => h.elim
  | d + 1, d' + 1, .inner none cs, h, h' => reg_level (c := c) (N := .inner none cs) h h'
  | d + 1, d' + 1, .inner (some sz) cs, h, h' => by
    obtain ⟨h1, _, h2, _⟩ := h
    obtain ⟨_, _, h2', _⟩ := h'
    obtain ⟨x, hx⟩ := List.exists_mem_of_ne_nil cs h1
    rw [wf_level (h2 x hx) (h2' x hx)]

theorem wf_empty {d : Nat} (h : WF c d (emptyRoot : Node T)) : False := by
  cases d with
  | zero => exact h
  | succ d => exact reg_empty (c := c) (T := T) (d := d + 1) h

theorem flex_els (hB : 0 < c.B) {t : Tree T} {l : List T} (h : Flex.Inv c t l) : els (levels c t.shift) t.root ++ els 0 t.tail = l := by
  obtain ⟨pre, tl, rfl, _, ht, _, _, hroot⟩ := h
  rw [ht]
  have : els (levels c t.shift) t.root = pre := by
    rcases hroot with ⟨h1, h2, h3⟩ | ⟨d, h1, h2⟩
    · rw [h2, h1]
      cases levels c t.shift <;> rfl
    · rw [h1, levels_shift hB]
      exact h2.els
  rw [this]; rfl

theorem flex_same {t t' : Tree T} {l l' : List T} (h : Flex.Inv c t l) (h' : Flex.Inv c t' l') (hr : t.root = t'.root) (ht : t.tail = t'.tail) : l = l' := by
  obtain ⟨pre, tl, rfl, _, h1, _, _, h2⟩ := h
  obtain ⟨pre', tl', rfl, _, h1', _, _, h2'⟩ := h'
  rw [ht, h1'] at h1
  cases h1
  congr 1
  rcases h2 with ⟨h3, h4, _⟩ | ⟨d, _, h3⟩
  · rcases h2' with ⟨h3', h4', _⟩ | ⟨d', _, h3'⟩
    · rw [h3, h3']
    · have := h3'.wf
      rw [← hr, h4] at this
      exact (wf_empty this).elim
  · rcases h2' with ⟨h3', h4', _⟩ | ⟨d', _, h3'⟩
    · have := h3.wf
      rw [hr, h4'] at this
      exact (wf_empty this).elim
    · have h4 := h3.wf
      have h5 := h3.els
      rw [hr] at h4 h5
      rw [wf_level h4 h3'.wf, h3'.els] at h5
      exact h5.symm

variable {E : Env Dat T} {X : Elem T}

theorem flex_laws (hB : 0 < c.B) (hE : E.Fresh) : Laws c E (flexKit T c X) (Spec.flexOps T) (Flex.Inv c) (flexTerms T c X) where
  empty := Flex.inv_empty
  size := fun h => h.size
  els := flex_els hB
  same := flex_same
  drop := fun ht hv h => fdrop_out hB hv ht h
  apply := by
    intro u t l v O L er et o l' s ht hv hr hok hs h
    have fin : ∀ {t' : Tree T} {x : HM T Vc}, Flex.Inv c t' l' → Out (x s) (Made c E u O (refs v t 0 ++ L) s.mem t' 0) (fun s' => Gone c E u O (refs v t 0 ++ L) s.mem s'.mem) →
        Out (x s) (fun s' v' => ∃ t', Flex.Inv c t' l' ∧ Made c E u O (refs v t 0 ++ L) s.mem t' 0 s' v') (fun s' => Gone c E u O (refs v t 0 ++ L) s.mem s'.mem) :=
      fun h1 h2 => out_mono h2 (fun _ _ h => ⟨_, h1, h⟩) (fun _ h => h)
    cases o with
    | push x =>
      obtain ⟨t', h1, h2, _⟩ := Flex.pushBack_spec hB ht x
      cases hr
      exact fin h2 (fpushBack_out hB hE hv ht h1 h)
    | set i x =>
      simp only [Spec.flexOps] at hr
      split at hr
      · rename_i hlt
        cases hr
        obtain ⟨t', h1, h2, _⟩ := Flex.update_spec hB ht hlt (fun _ => x)
        rw [modify_eq (List.getElem?_eq_getElem hlt)] at h2
        exact fin h2 (fupdate_out hB hE (user := false) hv ht hlt h1 h)
      · cases hr
    | update i f =>
      simp only [Spec.flexOps, Option.map_eq_some_iff] at hr
      obtain ⟨x, hx, rfl⟩ := hr
      obtain ⟨t', h1, h2, _⟩ := Flex.update_spec hB ht (getElem?_lt hx) f.f
      rw [modify_eq hx] at h2
      exact fin h2 (fupdate_out hB hE (user := f.user) hv ht (getElem?_lt hx) h1 h)
    | take n =>
      obtain ⟨t', h1, h2, _⟩ := Flex.take_spec hB ht n
      cases hr
      exact fin h2 (ftake_out hB hE hv ht h1 hs h)
    | drop n =>
      have hsm : Flex.Small t := ⟨by rw [← hv.size]; exact hok.1, by rw [← hv.shift]; exact hok.2.1⟩
      obtain ⟨t', h1, h2, _⟩ := Flex.drop_spec hB ht hsm n
      cases hr
      exact fin h2 (fdropN_out hB hE hv ht h1 hsm hs h)
  applyMut := by
    intro u t l v e O L er et o l' s he ht hv hr hok hs h
    have weak : ∀ {s' : St Dat T}, Gone c E u O (refs v t e ++ L) s.mem s'.mem → Inv (sys c E u) s'.mem O (refs v t e ++ L) ∧ Kept (sys c E u) O L s.mem s'.mem :=
      fun h => ⟨h.1, h.2.mono (fun r hr => List.mem_append_right _ hr) (fun _ h => h)⟩
    cases o with
    | push x =>
      obtain ⟨t', h1, h2, _⟩ := Flex.pushBack_spec hB ht x
      cases hr
      refine out_bind (out_mono (fpushBackMut_out hB hE he hv ht h1 h (hok rfl)) (fun _ _ h => h) (fun _ h => weak h)) ?_
      intro s' v' hm
      exact ⟨t', h2, hm⟩
    | take n =>
      obtain ⟨t', h1, h2, _⟩ := Flex.take_spec hB ht n
      cases hr
      refine out_bind (out_mono (ftakeMut_out hB hE he hv ht h1 hs h (hok rfl)) (fun _ _ h => h) (fun _ h => weak h)) ?_
      intro s' v' hm
      exact ⟨t', h2, hm⟩
    | drop n =>
      have hsm : Flex.Small t := ⟨by rw [← hv.size]; exact hok.1, by rw [← hv.shift]; exact hok.2.1⟩
      obtain ⟨t', h1, h2, _⟩ := Flex.drop_spec hB ht hsm n
      cases hr
      refine out_bind (fdropMut_out hB hE he (hok.2.2 rfl) hv ht h1 hsm hs h) ?_
      intro s' v' hm
      exact ⟨t', h2, hm⟩
    | set i x =>
      simp only [Spec.flexOps] at hr
      split at hr
      · rename_i hlt
        cases hr
        refine out_bind (out_mono (fgetMut_out hB hE he hv ht hlt h) (fun _ _ h => h) (fun _ h => weak h)) ?_
        rintro s' ⟨v', p, j⟩ ⟨cl, y, h1, h2, h3⟩
        obtain ⟨t', h4, h5, _⟩ := Flex.update_spec hB ht hlt (fun _ => x)
        rw [modify_eq (List.getElem?_eq_getElem hlt)] at h5
        exact ⟨cl, y, h1, h2, ⟨t', h5, h3 _ t' h4⟩, fun h => by cases h⟩
      · cases hr
    | update i f =>
      simp only [Spec.flexOps, Option.map_eq_some_iff] at hr
      obtain ⟨x, hx, rfl⟩ := hr
      have hlt := getElem?_lt hx
      refine out_bind (out_mono (fgetMut_out hB hE he hv ht hlt h) (fun _ _ h => h) (fun _ h => weak h)) ?_
      rintro s' ⟨v', p, j⟩ ⟨cl, y, h1, h2, h3⟩
      obtain ⟨t1, h4, h5, _⟩ := Flex.update_spec hB ht hlt f.f
      rw [modify_eq hx] at h5
      obtain ⟨t2, h6, h7, _⟩ := Flex.update_spec hB ht hlt f.left
      rw [modify_eq hx] at h7
      refine ⟨cl, y, h1, h2, ⟨t1, h5, h3 _ t1 h4⟩, fun hu => ⟨l.set i (f.left x), ?_, t2, h7, h3 _ t2 h6⟩⟩
      simp only [Spec.flexOps]
      rw [if_pos hu, hx]; rfl
  later := fun hl h => NoTab.later h hl
  pushMut := by
    intro u t l v e O L x s he ht hv hok h
    obtain ⟨t', h1, h2, _⟩ := Flex.pushBack_spec hB ht x
    exact out_mono (fpushBackMut_out hB hE he hv ht h1 h hok) (fun _ _ h => ⟨t', h2, h⟩) (fun _ h => h)
  get := fun ht hv hf hlt hr htl => fget_out hB hv ht (by unfold Flex.Fits; rw [← hv.shift]; exact hf) hlt hr htl
  calmDrop := calm_fdrop c E
  calmApply := by
    intro er et v o
    cases o with
    | push x => exact calm_fpushBack _ _ _ _
    | set i x => exact calm_fupdate _ _ _ _ _ _
    | update i f => exact calm_fupdate _ _ _ _ _ _
    | take n => exact calm_ftake _ _ _ _ _ _
    | drop n => exact calm_dropN _ _ _ _ _ _ _
  calmMut := by
    intro er et e v o
    cases o with
    | push x => exact calm_bind (calm_fpushBackMut _ _ _ _ _) fun _ => calm_ret _
    | set i x => exact calm_bind (calm_fgetMut _ _ _ _ _) fun _ => calm_ret _
    | update i f => exact calm_bind (calm_fgetMut _ _ _ _ _) fun _ => calm_ret _
    | take n => exact calm_bind (calm_ftakeMut _ _ _ _ _ _ _) fun _ => calm_ret _
    | drop n => exact calm_bind (calm_dropMut _ _ _ _ _ _ _ _) fun _ => calm_ret _
  calmPush := fun e v x => calm_fpushBackMut _ _ _ _ _

end
end FlexHeap
