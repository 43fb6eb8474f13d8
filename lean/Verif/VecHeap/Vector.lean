import Verif.VecHeap.World

/-!
# The operations of `vector` obey the laws that programs need
-/

namespace VecHeap
open Mm Rrb

section
variable {T : Type} {c : Cfg}

/-- a regular node tells how deep it is -/
theorem reg_level : ∀ {d d' : Nat} {N : Node T}, Reg c d N → Reg c d' N → d = d'
  | 0, 0, _, _, _ => rfl
  | 0, d' + 1, N, h, h' => by
    obtain ⟨ds, e, rfl, _⟩ := h'.decomp
    exact h.elim
  | d + 1, 0, N, h, h' => by
    obtain ⟨ds, e, rfl, _⟩ := h.decomp
    exact h'.elim
  | d + 1, d' + 1, N, h, h' => by
    cases N with
    | leaf => exact h.elim
    | inner r cs =>
      cases r with
      | some _ => exact h.elim
      | none =>
        obtain ⟨_, ds, e, rfl, _, he⟩ := h
        obtain ⟨_, ds', e', h1, _, he'⟩ := h'
        obtain ⟨_, h2⟩ := List.append_inj' h1 rfl
        cases h2
        rw [reg_level he he']

theorem reg_empty {d : Nat} (h : Reg c d (emptyRoot : Node T)) : False := by
  cases d with
  | zero => exact h
  | succ d =>
    obtain ⟨ds, e, h1, _⟩ := h.decomp
    have : (emptyRoot : Node T) = .inner none [] := rfl
    rw [this] at h1
    simp at h1

theorem vec_els (hB : 0 < c.B) {t : Tree T} {l : List T} (h : Vec.Inv c t l) : els (levels c t.shift) t.root ++ els 0 t.tail = l := by
  obtain ⟨pre, tl, rfl, _, ht, _, hroot⟩ := h
  rw [ht]
  have : els (levels c t.shift) t.root = pre := by
    rcases hroot with ⟨h1, h2, h3⟩ | ⟨d, h1, h2, h3, _⟩
    · rw [h2, h1]
      cases levels c t.shift <;> rfl
    · rw [h1, levels_shift hB]
      exact h3
  rw [this]; rfl

theorem vec_same {t t' : Tree T} {l l' : List T} (h : Vec.Inv c t l) (h' : Vec.Inv c t' l') (hr : t.root = t'.root) (ht : t.tail = t'.tail) : l = l' := by
  obtain ⟨pre, tl, rfl, _, h1, _, h2⟩ := h
  obtain ⟨pre', tl', rfl, _, h1', _, h2'⟩ := h'
  rw [ht, h1'] at h1
  cases h1
  congr 1
  rcases h2 with ⟨h3, h4, _⟩ | ⟨d, _, h3, h4, _⟩
  · rcases h2' with ⟨h3', h4', _⟩ | ⟨d', _, h3', h4', _⟩
    · rw [h3, h3']
    · rw [← hr, h4] at h3'
      exact (reg_empty h3').elim
  · rcases h2' with ⟨h3', h4', _⟩ | ⟨d', _, h3', h4', _⟩
    · rw [hr, h4'] at h3
      exact (reg_empty h3).elim
    · rw [hr] at h3 h4
      rw [reg_level h3 h3'] at h4
      rw [← h4, h4']

variable {E : Env Dat T}

theorem modify_eq {l : List T} {i : Nat} {x : T} {f : T → T} (h : l[i]? = some x) : l.modify i f = l.set i (f x) := modify_set h

/-- Elements can be read unless the tree is too deep (F4). -/
def vecTerms (T : Type) (c : Cfg) : Spec.Terms (VecOp T) := .free fun v => Vec.Fits c v.size

theorem vector_laws (hB : 0 < c.B) (hE : E.Fresh) : Laws c E (vectorKit T c) (Spec.vecOps T) (Vec.Inv c) (vecTerms T c) where
  empty := Vec.inv_empty
  size := by rintro t l ⟨_, _, _, h, _⟩; exact h
  els := vec_els hB
  same := vec_same
  drop := fun ht hv h => drop_out hB hv ht h
  apply := by
    intro u t l v O L er et o l' s ht hv hr _ hs h
    have fin : ∀ {t' : Tree T} {x : HM T Vc}, Vec.Inv c t' l' → Out (x s) (Made c E u O (refs v t 0 ++ L) s.mem t' 0) (fun s' => Gone c E u O (refs v t 0 ++ L) s.mem s'.mem) →
        Out (x s) (fun s' v' => ∃ t', Vec.Inv c t' l' ∧ Made c E u O (refs v t 0 ++ L) s.mem t' 0 s' v') (fun s' => Gone c E u O (refs v t 0 ++ L) s.mem s'.mem) :=
      fun h1 h2 => out_mono h2 (fun _ _ h => ⟨_, h1, h⟩) (fun _ h => h)
    cases o with
    | push x =>
      obtain ⟨t', h1, h2⟩ := Vec.pushBack_spec hB ht x
      cases hr
      exact fin h2 (pushBack_out hB hE hv ht h1 h)
    | set i x =>
      simp only [Spec.vecOps] at hr
      split at hr
      · rename_i hlt
        cases hr
        obtain ⟨t', h1, h2⟩ := Vec.update_spec hB ht hlt (fun _ => x)
        rw [modify_eq (List.getElem?_eq_getElem hlt)] at h2
        exact fin h2 (update_out hB hE (user := false) hv ht hlt h1 h)
      · cases hr
    | update i f =>
      simp only [Spec.vecOps, Option.map_eq_some_iff] at hr
      obtain ⟨x, hx, rfl⟩ := hr
      obtain ⟨t', h1, h2⟩ := Vec.update_spec hB ht (getElem?_lt hx) f.f
      rw [modify_eq hx] at h2
      exact fin h2 (update_out hB hE (user := f.user) hv ht (getElem?_lt hx) h1 h)
    | take n =>
      obtain ⟨t', h1, h2⟩ := Vec.take_spec hB ht n
      cases hr
      exact fin h2 (take_out hB hE hv ht h1 hs h)
  applyMut := by
    intro u t l v e O L er et o l' s he ht hv hr _ hs h
    have weak : ∀ {s' : St Dat T}, Gone c E u O (refs v t e ++ L) s.mem s'.mem → Inv (sys c E u) s'.mem O (refs v t e ++ L) ∧ Kept (sys c E u) O L s.mem s'.mem :=
      fun h => ⟨h.1, h.2.mono (fun r hr => List.mem_append_right _ hr) (fun _ h => h)⟩
    cases o with
    | push x =>
      obtain ⟨t', h1, h2⟩ := Vec.pushBack_spec hB ht x
      cases hr
      refine out_bind (out_mono (pushBackMut_out hB hE he hv ht h1 h) (fun _ _ h => h) (fun _ h => weak h)) ?_
      intro s' v' hm
      exact ⟨t', h2, hm⟩
    | take n =>
      obtain ⟨t', h1, h2⟩ := Vec.take_spec hB ht n
      cases hr
      refine out_bind (out_mono (takeMut_out hB hE he hv ht h1 hs h) (fun _ _ h => h) (fun _ h => weak h)) ?_
      intro s' v' hm
      exact ⟨t', h2, hm⟩
    | set i x =>
      simp only [Spec.vecOps] at hr
      split at hr
      · rename_i hlt
        cases hr
        refine out_bind (out_mono (vcGetMut_out hB hE he hv ht hlt h) (fun _ _ h => h) (fun _ h => weak h)) ?_
        rintro s' ⟨v', p, j⟩ ⟨cl, y, h1, h2, h3⟩
        obtain ⟨t', h4, h5⟩ := Vec.update_spec hB ht hlt (fun _ => x)
        rw [modify_eq (List.getElem?_eq_getElem hlt)] at h5
        exact ⟨cl, y, h1, h2, ⟨t', h5, h3 _ t' h4⟩, fun h => by cases h⟩
      · cases hr
    | update i f =>
      simp only [Spec.vecOps, Option.map_eq_some_iff] at hr
      obtain ⟨x, hx, rfl⟩ := hr
      have hlt := getElem?_lt hx
      refine out_bind (out_mono (vcGetMut_out hB hE he hv ht hlt h) (fun _ _ h => h) (fun _ h => weak h)) ?_
      rintro s' ⟨v', p, j⟩ ⟨cl, y, h1, h2, h3⟩
      obtain ⟨t1, h4, h5⟩ := Vec.update_spec hB ht hlt f.f
      rw [modify_eq hx] at h5
      obtain ⟨t2, h6, h7⟩ := Vec.update_spec hB ht hlt f.left
      rw [modify_eq hx] at h7
      refine ⟨cl, y, h1, h2, ⟨t1, h5, h3 _ t1 h4⟩, fun hu => ⟨l.set i (f.left x), ?_, t2, h7, h3 _ t2 h6⟩⟩
      simp only [Spec.vecOps]
      rw [if_pos hu, hx]; rfl
  later := fun _ _ => trivial
  pushMut := by
    intro u t l v e O L x s he ht hv _ h
    obtain ⟨t', h1, h2⟩ := Vec.pushBack_spec hB ht x
    exact out_mono (pushBackMut_out hB hE he hv ht h1 h) (fun _ _ h => ⟨t', h2, h⟩) (fun _ h => h)
  get := fun ht hv hf hlt hr htl => get_out hB hv ht (by have hf : Vec.Fits c _ := hf; obtain ⟨_, _, _, h, _⟩ := ht; rw [hv.size, h] at hf; exact hf) hlt hr htl
  calmDrop := calm_drop c E
  calmApply := by
    intro er et v o
    cases o with
    | push x => exact calm_pushBack _ _ _ _
    | set i x => exact calm_update _ _ _ _ _ _
    | update i f => exact calm_update _ _ _ _ _ _
    | take n => exact calm_take _ _ _ _ _ _
  calmMut := by
    intro er et e v o
    cases o with
    | push x => exact calm_bind (calm_pushBackMut _ _ _ _ _) fun _ => calm_ret _
    | set i x => exact calm_bind (calm_getMut _ _ _ _ _) fun _ => calm_ret _
    | update i f => exact calm_bind (calm_getMut _ _ _ _ _) fun _ => calm_ret _
    | take n => exact calm_bind (calm_takeMut _ _ _ _ _ _ _) fun _ => calm_ret _
  calmPush := fun e v x => calm_pushBackMut _ _ _ _ _

end
end VecHeap
