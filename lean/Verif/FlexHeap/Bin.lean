import Verif.FlexHeap.ConcatMutL
import Verif.FlexHeap.ConcatMut
import Verif.FlexHeap.Flex
import Verif.VecHeap.Progs

/-!
# Calls with two flexible vectors

What concatenations should do, when they can be relied on, and that they do it.
-/

namespace FlexHeap
open Mm Rrb VecHeap

/-! ### What they should do -/

namespace Spec
variable {T : Type}

/-- a new object, or another one for `i` or `j` -/
def stepBin (gc : Bool) (M : List (VecHeap.Spec.SObj T)) (b : Bin) (i j : Nat) : List (VecHeap.Spec.SObj T) :=
  VecHeap.Spec.on M i b.kd fun s => VecHeap.Spec.on M j (some s.kd.kd) fun s' =>
    if b = .plus ∨ (gc = true ∧ s.kd.kd = .value) then M ++ [⟨.value, s.val ++ s'.val⟩]
    else if i = j then M
    else
      match b with
      | .plus => M
      | .appendTo => M.set i ⟨s.kd, s.val ++ s'.val⟩
      | .prependTo | .prependMove => M.set j ⟨s'.kd, s.val ++ s'.val⟩
      | .appendMove => (M.set i ⟨s.kd, s.val ++ s'.val⟩).eraseIdx j

/-- the objects that a call may change -/
def hurtBin (gc : Bool) (b : Bin) (i j : Nat) : List Nat :=
  if gc then []
  else
    match b with
    | .plus => []
    | .appendTo => [i]
    | .prependTo | .prependMove => [j]
    | .appendMove => [i, j]

end Spec

/-! ### When they can be relied on -/

section terms
variable {T : Type} (c : Cfg)

/-- how many elements there are in the tail -/
def inTail (m : Mem Dat T) (v : Vc) : Nat :=
  match Fc.off (T := T) c v ⟨m, 0, none⟩ with
  | .ok _ o => v.size - o
  | _ => 0

/-- The second operand has 32-bit sizes and shifts (F5).  Under the collector, no copy of an element throws (F25).  In place,
references are counted; no allocation of a size table throws (F24); nothing throws when the elements of a short second operand do
not fit in the tail of the first (F8); and `prepend(&&)` is not called with a first operand whose tail is full (F2). -/
def binOn (gc : Bool) (w : World T) (f : Option (Kind × Nat)) (b : Bin) (h h' : Obj) : Prop :=
  h'.v.size ≤ 2 ^ 32 ∧ h'.v.shift < 32 ∧
    if b = .plus ∨ (gc = true ∧ h.kd = .value) then gc = true → ∀ n, f ≠ some (.copy, n)
    else gc = false ∧
      match b with
      | .appendTo | .appendMove => NoTab f ∧
          (inTail c w.st.mem h'.v = h'.v.size → inTail c w.st.mem h.v ≠ 2 ^ c.BL → 2 ^ c.BL < inTail c w.st.mem h.v + h'.v.size → f = none)
      | .prependMove => inTail c w.st.mem h.v ≠ 2 ^ c.BL
      | _ => True

end terms

/-! ### Faults -/

section honest
variable {T β : Type} {c : Cfg} {E : Env Dat T}

/-- without a fault, nothing is thrown -/
def Honest (x : HM T (Vc × Bool)) : Prop := ∀ s : St Dat T, s.fault = none → Out (x s) (fun _ b => b.2 = false) (fun _ => False) ∨ x s = .ub

theorem honest_bind {x : HM T β} {f : β → HM T (Vc × Bool)} (hx : Calm x) (hf : ∀ b, Honest (f b)) : Honest (x.bind f) := by
  intro s hs
  have := hx s
  unfold M.bind
  cases hr : x s with
  | ok s' b => rw [hr] at this; exact hf b s' (this.none hs)
  | thrown s' => rw [hr] at this; exact absurd hs this
  | ub => exact .inr rfl

theorem honest_ret (v : Vc) : Honest (M.ret (v, false) : HM T (Vc × Bool)) := fun _ _ => .inl rfl

theorem honest_attempt {x : HM T β} {f : Option β → HM T (Vc × Bool)} (hx : Calm x) (hf : ∀ b, Honest (f (some b))) : Honest ((attempt x).bind f) := by
  intro s hs
  have := hx s
  unfold M.bind attempt
  cases hr : x s with
  | ok s' b => rw [hr] at this; exact hf b s' (this.none hs)
  | thrown s' => rw [hr] at this; exact absurd hs this
  | ub => exact .inr rfl

theorem honest_ite {p : Prop} [Decidable p] {x y : HM T (Vc × Bool)} (hx : Honest x) (hy : Honest y) : Honest (if p then x else y) := by
  split <;> assumption

theorem honest_concatMutL (mv : Bool) (e : Nat) (v w : Vc) : Honest (Fc.concatMutL c E mv e v w) := by
  unfold Fc.concatMutL
  refine honest_ite (honest_bind (by calm) fun _ => honest_bind (by calm) fun _ => honest_ret _) (honest_ite (honest_ret _) ?_)
  refine honest_bind (by calm) fun _ => honest_bind (by calm) fun _ => honest_ite (honest_ite ?_ ?_) ?_
  · exact honest_bind (by calm) fun _ => honest_bind (by calm) fun _ => honest_ret _
  · refine honest_bind (by calm) fun _ => honest_bind (by calm) fun _ => honest_attempt ?_ fun _ => honest_ret _
    calm
    exact calm_uninitMove _ _ _ _ _
  · exact honest_bind (by calm) fun _ => honest_bind (by calm) fun _ => honest_bind (by calm) fun _ => honest_ret _

theorem calm_concatMutR (b : Bool) (e : Nat) (v w : Vc) : Calm (Fc.concatMutR c E b e v w) := by unfold Fc.concatMutR; calm

end honest

/-! ### Soundness -/

section
variable {T : Type} {c : Cfg} {E : Env Dat T} {er et : Nat} {w : World T} {M : List (VecHeap.Spec.SObj T)} {G : List (Gh T)} {m m' : Mem Dat T} {i j : Nat} {g g' : Gh T} {s s' : VecHeap.Spec.SObj T} {next : Nat}

/-- the objects are as they should be, and those that may not change have not -/
def FPost (c : Cfg) (E : Env Dat T) (er et : Nat) (w : World T) (hu : List Nat) (M : List (VecHeap.Spec.SObj T)) (w' : World T) : Prop :=
  Rel c E (Flex.Inv c) er et w' M ∧ ∀ k o, w.objs[k]? = some o → k ∉ hu → Keeps w.st.mem w'.st.mem [o.v.root, o.v.tail]

theorem fpost_self (h : RelG c E (Flex.Inv c) er et w G M) {hu : List Nat} : FPost c E er et w hu M w :=
  ⟨⟨G, h⟩, fun k o ho _ => (h.keeps_refl (hu := none)).mono fun r hr => List.mem_flatMap.mpr ⟨o, List.mem_of_getElem? ho, hr⟩⟩

/-- two objects, and the others -/
theorem two_perm {α : Type} {G : List α} {i j : Nat} {a b : α} (hij : i ≠ j) (hi : G[i]? = some a) (hj : G[j]? = some b) :
    ∃ R, (G.eraseIdx i).Perm (b :: R) ∧ (∀ y, ((G.set i y).eraseIdx j).Perm (y :: R)) ∧ ∀ k x, k ≠ i → k ≠ j → G[k]? = some x → x ∈ R := by
  have idx : ∀ {k : Nat} {x : α}, k ≠ i → G[k]? = some x → (G.eraseIdx i)[if k < i then k else k - 1]? = some x := by
    intro k x hk hx
    rw [List.getElem?_eraseIdx]
    by_cases hki : k < i
    · rw [if_pos hki, if_pos hki]; exact hx
    · rw [if_neg hki, if_neg (by omega), show k - 1 + 1 = k by omega]; exact hx
  refine ⟨(G.eraseIdx i).eraseIdx (if j < i then j else j - 1), (at_perm (idx hij.symm hj)).1, fun y => ?_, fun k x hk hkj hx => ?_⟩
  · have h1 := (at_perm hi).2 y
    have h2 := (at_perm (G := G.set i y) (i := j) (g := b) (by rw [List.getElem?_set_ne hij]; exact hj)).1
    exact List.Perm.cons_inv ((h2.symm.trans h1).trans (((at_perm (idx hij.symm hj)).1.cons y).trans (List.Perm.swap _ _ _)))
  · refine List.mem_eraseIdx_iff_getElem?.mpr ⟨_, ?_, idx hk hx⟩
    split <;> split <;> omega

/-- the references of two objects first -/
theorem both_perm {R : List (Gh T)} : (sRefs T er et ++ (g :: g' :: R).flatMap Gh.refs).Perm (g.refs ++ (g'.refs ++ (sRefs T er et ++ R.flatMap Gh.refs))) := by
  rw [List.flatMap_cons, List.flatMap_cons]
  exact (List.perm_append_comm_assoc _ _ _).trans ((List.perm_append_comm_assoc _ _ _).append_left _)

theorem rest_perm {R : List (Gh T)} (h : (G.eraseIdx i).Perm (g' :: R)) : (sRefs T er et ++ (G.eraseIdx i).flatMap Gh.refs).Perm (g'.refs ++ (sRefs T er et ++ R.flatMap Gh.refs)) :=
  ((h.flatMap_right Gh.refs).append_left _).trans (by rw [List.flatMap_cons]; exact List.perm_append_comm_assoc _ _ _)

/-- an object has changed -/
theorem put_post (hgc : E.gc = false) (h : RelG c E (Flex.Inv c) er et w G M) (hg : G[i]? = some g) (hl : Local E.gc g s) {w' : World T} {x : Vc} {k : Nat} {N : Tree T} {l : List T}
    (ho : w'.objs = w.objs.modify i fun h => { h with v := x }) (hn : w'.next = w.next) (hN : Flex.Inv c N l) (hx : Is x N)
    (hi : Inv (sys c E (toks E.gc w.next (acts (g :: G.eraseIdx i)))) w'.st.mem [] (refs x N k ++ (sRefs T er et ++ (G.eraseIdx i).flatMap Gh.refs)))
    (hk : Kept (sys c E (toks E.gc w.next (acts (g :: G.eraseIdx i)))) [] (sRefs T er et ++ (G.eraseIdx i).flatMap Gh.refs) w.st.mem w'.st.mem) : FPost c E er et w [i] (M.set i ⟨s.kd, l⟩) w' := by
  obtain ⟨hp1, hp2⟩ := at_perm hg
  have hp := h.sound.perm hp1
  have hgo : w.objs[i]? = some g.obj := by rw [h.objs, List.getElem?_map, hg]; rfl
  refine ⟨⟨G.set i ⟨{ g.obj with v := x }, N, l, 0, g.act⟩, ?_, f2_set h.loc i ⟨hl.1, hl.2.1, rfl⟩, ?_⟩, ?_⟩
  · rw [ho, modify_set hgo, h.objs, List.map_set]
  · rw [hn]
    exact (hp.put (o := { g.obj with v := x }) rfl rfl (retokAll hgc 0 hi) (fun h => absurd rfl h) hN hx).perm (hp2 _).symm
  · intro k o hko hne
    refine (kept_keeps' hp.first (fun r hr => List.mem_append_right _ hr) hk).mono fun r hr => ?_
    rw [h.objs, List.getElem?_map] at hko
    cases hgk : G[k]? with
    | none => rw [hgk] at hko; cases hko
    | some gk =>
      rw [hgk] at hko; cases hko
      have hm : gk ∈ G.eraseIdx i := List.mem_eraseIdx_iff_getElem?.mpr ⟨k, fun hki => hne (by simp [hki]), hgk⟩
      have : r ∈ gk.refs.map Ref.ptr := by simpa [Gh.refs, VecHeap.refs] using hr
      rw [List.map_append]
      refine List.mem_append_right _ ?_
      obtain ⟨a, ha, rfl⟩ := List.mem_map.mp this
      exact List.mem_map_of_mem (List.mem_flatMap.mpr ⟨gk, hm, ha⟩)

/-- nothing has changed -/
theorem back_post (hgc : E.gc = false) (h : RelG c E (Flex.Inv c) er et w G M) (hg : G[i]? = some g) (hs : M[i]? = some s) (hl : Local E.gc g s) {w' : World T} {k : Nat}
    (ho : w'.objs = w.objs) (hn : w'.next = w.next)
    (hi : Inv (sys c E (toks E.gc w.next (acts (g :: G.eraseIdx i)))) w'.st.mem [] (refs g.obj.v g.N k ++ (sRefs T er et ++ (G.eraseIdx i).flatMap Gh.refs)))
    (hk : Kept (sys c E (toks E.gc w.next (acts (g :: G.eraseIdx i)))) [] (sRefs T er et ++ (G.eraseIdx i).flatMap Gh.refs) w.st.mem w'.st.mem) : FPost c E er et w [i] M w' := by
  have hgo : w.objs[i]? = some g.obj := by rw [h.objs, List.getElem?_map, hg]; rfl
  have ht := h.sound.tree g (List.mem_of_getElem? hg)
  have := put_post hgc h hg hl (x := g.obj.v) (l := s.val) (w' := w') (by rw [ho, modify_set hgo, set_same hgo]) hn (by rw [← hl.2.2]; exact ht.1) ht.2 hi hk
  rwa [set_same hs] at this

theorem FPost.mono {hu hu' : List Nat} {w' : World T} (h : FPost c E er et w hu M w') (hs : ∀ a ∈ hu, a ∈ hu') : FPost c E er et w hu' M w' :=
  ⟨h.1, fun k o ho hk => h.2 k o ho fun hh => hk (hs k hh)⟩

/-- `operator+` -/
theorem plus_out (hB : 2 ≤ c.B) (hE : E.Fresh) (h : RelG c E (Flex.Inv c) er et w G M) (hg : G[i]? = some g) (hg' : G[j]? = some g') (hl : Local E.gc g s) (hl' : Local E.gc g' s')
    (hk : s.kd = .value) (hk' : s'.kd = .value) (h32 : g'.obj.v.size ≤ 2 ^ 32) (hs32 : g'.obj.v.shift < 32) (hcf : E.gc = true → ∀ n, w.st.fault ≠ some (.copy, n)) {hu : List Nat} :
    AOut (((lift (Fc.concat c E g.obj.v g'.obj.v)).bind fun x => push ⟨.value, x, 0⟩) w) (fun w' _ => FPost c E er et w hu (M ++ [⟨.value, s.val ++ s'.val⟩]) w')
      (fun w' => FPost c E er et w hu M w' ∧ w.st.fault ≠ none) := by
  have hm := List.mem_of_getElem? hg
  have hm' := List.mem_of_getElem? hg'
  have ht := sound_t0 h.sound hm hl (.inl (by rw [hk]; exact fun h => by cases h))
  have ht' := sound_t0 h.sound hm' hl' (.inl (by rw [hk']; exact fun h => by cases h))
  have a1 := h.sound.tree g hm
  have a2 := h.sound.tree g' hm'
  have hkeep : ∀ {m' : Mem Dat T}, Kept (sys c E (toks E.gc w.next (acts G))) [] (sRefs T er et ++ G.flatMap Gh.refs) w.st.mem m' → ∀ k o, w.objs[k]? = some o → k ∉ hu → Keeps w.st.mem m' [o.v.root, o.v.tail] :=
    fun hk k o ho _ => (h.keeps_all (hu := none) hk).mono fun r hr => List.mem_flatMap.mpr ⟨o, List.mem_of_getElem? ho, hr⟩
  refine aout_bind (aout_mono (aout_lift (out_fault (calm_concat c E _ _) (fconcat_out hB hE a1.2 a1.1 a2.2 a2.1 h.sound.inv (fun r hr => h.sound.mem hm (by rw [Gh.refs, ht]; exact hr))
    (fun r hr => h.sound.mem hm' (by rw [Gh.refs, ht']; exact hr)) h32 hs32 hcf))) (fun _ _ h => h) ?_) ?_
  · rintro w1 ⟨⟨⟨h1, h2⟩, h3⟩, h4, h5⟩
    exact ⟨⟨⟨G, by rw [h4]; exact h.objs, h.loc, by rw [h5]; exact { h.sound with inv := h1 }⟩, hkeep h2⟩, h3⟩
  · rintro w1 x ⟨⟨⟨N, h1, -, h2, h3, h4⟩, -⟩, h5, h6⟩
    refine ⟨⟨G ++ [(⟨⟨.value, x, 0⟩, N, g.l ++ g'.l, 0, false⟩ : Gh T)], ?_, ?_, ?_⟩, hkeep h4⟩
    · show w1.objs ++ _ = _
      rw [h5, h.objs, List.map_append]; rfl
    · exact f2_push h.loc ⟨rfl, by simp, by show g.l ++ g'.l = _; rw [hl.2.2, hl'.2.2]⟩
    · show Sound c E _ er et w1.st.mem w1.next _
      rw [h6]
      exact (h.sound.add (o := ⟨.value, x, 0⟩) rfl h3 h1 h2).push

theorem inTail_eq {m : Mem Dat T} {u : Toks E.gc} {v : Vc} {t : Tree T} {pre tl : List T} (hp : FParts c v t pre tl) (hi : Is v t) (hd : Den (sys c E u) m v.root (.node t.root)) : inTail c m v = tl.length := by
  unfold inTail
  rw [off_eq (s := ⟨m, 0, none⟩) hp hi hd]
  exact hp.rest

/-- `prepend`, `operator+` with the second an rvalue -/
theorem prepend_out (hB : 2 ≤ c.B) (hE : E.Fresh) (hgc : E.gc = false) (h : RelG c E (Flex.Inv c) er et w G M) (hij : i ≠ j) (hg : G[i]? = some g) (hg' : G[j]? = some g') (hl : Local E.gc g s) (hl' : Local E.gc g' s') (hs' : M[j]? = some s')
    (h32 : g'.obj.v.size ≤ 2 ^ 32) (hs32 : g'.obj.v.shift < 32) {b : Bool} {e : Nat} (hb : b = true ∨ inTail c w.st.mem g.obj.v ≠ 2 ^ c.BL) :
    AOut (((lift (Fc.concatMutR c E b e g.obj.v g'.obj.v)).bind fun x => setVc j x) w) (fun w' _ => FPost c E er et w [j] (M.set j ⟨s'.kd, s.val ++ s'.val⟩) w')
      (fun w' => FPost c E er et w [j] M w' ∧ w.st.fault ≠ none) := by
  have hm := List.mem_of_getElem? hg
  have hm' := List.mem_of_getElem? hg'
  have a1 := h.sound.tree g hm
  have a2 := h.sound.tree g' hm'
  obtain ⟨R, hR, -⟩ := two_perm hij.symm hg' hg
  have hp := (h.sound.perm (at_perm hg').1).first
  have hr := rest_perm (er := er) (et := et) hR
  obtain ⟨pre, tl, -, hpp⟩ := fparts (by omega) a1.2 a1.1
  have hb' : b = true ∨ ∀ o, Flex.tailOffset c g.N = some o → g.obj.v.size - o ≠ 2 ^ c.BL := by
    refine hb.imp_right fun hb o ho => ?_
    rw [hpp.off'] at ho; cases ho
    rw [hpp.rest, ← inTail_eq hpp a1.2 (h.sound.denRoot hm)]
    exact hb
  refine aout_bind (aout_mono (aout_lift (out_fault (calm_concatMutR _ _ _ _) (fconcatMutR_out hB hE hgc a1.2 a1.1 a2.2 a2.1 (hp.permL (hr.append_left _)) h32 hs32 hb'))) (fun _ _ h => h) ?_) ?_
  · rintro w1 ⟨⟨⟨h1, h2⟩, h3⟩, h4, h5⟩
    exact ⟨back_post hgc h hg' hs' hl' h4 h5 (h1.permL (hr.symm.append_left _)) (h2.mono (fun r hr' => List.mem_append_right _ (hr.mem_iff.mp hr')) fun _ h => h), h3⟩
  · rintro w1 x ⟨⟨⟨N, h1, -, h2, h3, h4⟩, -⟩, h5, h6⟩
    rw [← hl.2.2, ← hl'.2.2]
    exact put_post hgc h hg' hl' (w' := { w1 with objs := w1.objs.modify j fun h => { h with v := x } }) (by rw [← h5]) h6 h1 h2 (h3.permL (hr.symm.append_left _)) (h4.mono (fun r hr' => hr.mem_iff.mp hr') fun _ h => h)

/-- `concat_mut_l`, in a program -/
theorem appendL_out (hB : 2 ≤ c.B) (hE : E.Fresh) (hgc : E.gc = false) (h : RelG c E (Flex.Inv c) er et w G M) (hg : G[i]? = some g) (hg' : G[j]? = some g')
    (h32 : g'.obj.v.size ≤ 2 ^ 32) (hs32 : g'.obj.v.shift < 32) (hN : NoTab w.st.fault)
    (hF : inTail c w.st.mem g'.obj.v = g'.obj.v.size → inTail c w.st.mem g.obj.v ≠ 2 ^ c.BL → 2 ^ c.BL < inTail c w.st.mem g.obj.v + g'.obj.v.size → w.st.fault = none)
    {mv : Bool} {k : Nat} {R : List (Gh T)} (hR : (G.eraseIdx i).Perm (g' :: R)) :
    AOut (lift (Fc.concatMutL c E mv k g.obj.v g'.obj.v) w)
      (fun w1 x => (∃ b, Appended c E (toks E.gc w.next (acts (g :: G.eraseIdx i))) [] (sRefs T er et ++ R.flatMap Gh.refs) g'.obj.v g'.N k g'.t mv w.st.mem b g.l g'.l w1.st x) ∧
        (x.2 = true → w.st.fault ≠ none) ∧ w1.objs = w.objs ∧ w1.next = w.next)
      (fun w1 => (Inv (sys c E (toks E.gc w.next (acts (g :: G.eraseIdx i)))) w1.st.mem [] (refs g.obj.v g.N k ++ (sRefs T er et ++ (G.eraseIdx i).flatMap Gh.refs)) ∧
        Kept (sys c E (toks E.gc w.next (acts (g :: G.eraseIdx i)))) [] (sRefs T er et ++ (G.eraseIdx i).flatMap Gh.refs) w.st.mem w1.st.mem) ∧ w.st.fault ≠ none ∧ w1.objs = w.objs ∧ w1.next = w.next) := by
  have hm := List.mem_of_getElem? hg
  have hm' := List.mem_of_getElem? hg'
  have a1 := h.sound.tree g hm
  have a2 := h.sound.tree g' hm'
  have hp := retokAll hgc k (h.sound.perm (at_perm hg).1).first
  have hr := rest_perm (er := er) (et := et) hR
  obtain ⟨pre, tl, -, hpp⟩ := fparts (by omega) a1.2 a1.1
  obtain ⟨pre', tl', -, hqq⟩ := fparts (by omega) a2.2 a2.1
  have e1 := inTail_eq hpp a1.2 (h.sound.denRoot hm)
  have e2 := inTail_eq hqq a2.2 (h.sound.denRoot hm')
  have hout := fconcatMutL_out (s := w.st) (mv := mv) hB hE hgc a1.2 a1.1 a2.2 a2.1 (hp.permL (hr.append_left _)) h32 hs32 hN (by
    intro o ho2 ho hx hy
    rw [hpp.off'] at ho; cases ho
    rw [hqq.off'] at ho2
    have h0 : pre'.length = 0 := by simpa using ho2
    rw [hpp.rest] at hx hy
    have := hqq.size
    exact hF (by rw [e2]; omega) (by rw [e1]; exact hx) (by rw [e1]; exact hy))
  refine aout_mono (aout_lift (Q := fun s' x => Appended c E (toks E.gc w.next (acts (g :: G.eraseIdx i))) [] (sRefs T er et ++ R.flatMap Gh.refs) g'.obj.v g'.N k g'.t mv w.st.mem (max g.obj.v.shift g'.obj.v.shift + c.B) g.l g'.l s' x ∧ (x.2 = true → w.st.fault ≠ none))
    (F := fun s' => Gone c E (toks E.gc w.next (acts (g :: G.eraseIdx i))) [] (refs g.obj.v g.N k ++ (refs g'.obj.v g'.N g'.t ++ (sRefs T er et ++ R.flatMap Gh.refs))) w.st.mem s'.mem ∧ w.st.fault ≠ none) ?_) ?_ ?_
  · have hh := honest_concatMutL (c := c) (E := E) mv k g.obj.v g'.obj.v w.st
    cases hx : Fc.concatMutL c E mv k g.obj.v g'.obj.v w.st with
    | ok s' x =>
      rw [hx] at hout hh
      refine ⟨hout, fun h2 h0 => ?_⟩
      rcases hh h0 with hh | hh
      · have hh : x.2 = false := hh
        rw [h2] at hh; cases hh
      · cases hh
    | thrown s' =>
      rw [hx] at hout hh
      refine ⟨hout, fun h0 => ?_⟩
      rcases hh h0 with hh | hh
      · exact hh
      · cases hh
    | ub => rw [hx] at hout; exact hout
  · rintro w1 x ⟨⟨h1, h2⟩, h3, h4⟩
    exact ⟨⟨_, h1⟩, h2, h3, h4⟩
  · rintro w1 ⟨⟨⟨h1, h2⟩, h3⟩, h4, h5⟩
    exact ⟨⟨h1.permL (hr.symm.append_left _), h2.mono (fun r hr' => List.mem_append_right _ (hr.mem_iff.mp hr')) fun _ h => h⟩, h3, h4, h5⟩

/-- the first operand has been changed and the second has not -/
theorem changed_post (hgc : E.gc = false) (h : RelG c E (Flex.Inv c) er et w G M) (hg : G[i]? = some g) (hl : Local E.gc g s) {R : List (Gh T)} (hR : (G.eraseIdx i).Perm (g' :: R)) {w1 : World T} {x : Vc} {k b : Nat} {l : List T}
    (ho : w1.objs = w.objs) (hn : w1.next = w.next)
    (hx : Changed c E (toks E.gc w.next (acts (g :: G.eraseIdx i))) [] (refs g'.obj.v g'.N g'.t ++ (sRefs T er et ++ R.flatMap Gh.refs)) w.st.mem k b l w1.st x) :
    FPost c E er et w [i] (M.set i ⟨s.kd, l⟩) { w1 with objs := w1.objs.modify i fun h => { h with v := x } } := by
  obtain ⟨N, h1, -, h2, h3, h4⟩ := hx
  have hr := rest_perm (er := er) (et := et) hR
  exact put_post hgc h hg hl (by rw [← ho]) hn h1 h2 (h3.permL (hr.symm.append_left _)) (h4.mono (fun r hr' => hr.mem_iff.mp hr') fun _ h => h)

/-- `append(&)`, `operator+` with the first an rvalue -/
theorem appendTo_out (hB : 2 ≤ c.B) (hE : E.Fresh) (hgc : E.gc = false) (h : RelG c E (Flex.Inv c) er et w G M) (hij : i ≠ j) (hg : G[i]? = some g) (hg' : G[j]? = some g') (hl : Local E.gc g s) (hl' : Local E.gc g' s') (hs : M[i]? = some s)
    (h32 : g'.obj.v.size ≤ 2 ^ 32) (hs32 : g'.obj.v.shift < 32) (hN : NoTab w.st.fault)
    (hF : inTail c w.st.mem g'.obj.v = g'.obj.v.size → inTail c w.st.mem g.obj.v ≠ 2 ^ c.BL → 2 ^ c.BL < inTail c w.st.mem g.obj.v + g'.obj.v.size → w.st.fault = none) :
    AOut (changeBin c E .appendTo i j g.obj g'.obj w) (fun w' _ => FPost c E er et w [i] (M.set i ⟨s.kd, s.val ++ s'.val⟩) w')
      (fun w' => FPost c E er et w [i] M w' ∧ w.st.fault ≠ none) := by
  obtain ⟨R, hR, -⟩ := two_perm hij hg hg'
  unfold changeBin
  rw [if_neg hij]
  refine aout_bind (aout_mono (appendL_out hB hE hgc h hg hg' h32 hs32 hN hF hR) (fun _ _ h => h) ?_) ?_
  · rintro w1 ⟨h1, h2, h3, h4⟩
    exact ⟨back_post hgc h hg hs hl h3 h4 h1.1 h1.2, h2⟩
  · rintro w1 ⟨x, th⟩ ⟨⟨b, hap⟩, h2, h3, h4⟩
    rw [bind_setVc]
    rcases hap with hc | ⟨hmv, _⟩
    · have hc := changed_post hgc h hg hl hR h3 h4 hc
      cases th with
      | true =>
        refine ⟨?_, h2 rfl⟩
        simp only [if_true, hl.2.2, set_same hs] at hc
        exact hc
      | false =>
        simp only [Bool.false_eq_true, if_false, hl.2.2, hl'.2.2] at hc
        exact hc
    · cases hmv

/-- `append(&&)`, `operator+` with both rvalues -/
theorem appendMove_out (hB : 2 ≤ c.B) (hE : E.Fresh) (hgc : E.gc = false) (h : RelG c E (Flex.Inv c) er et w G M) (hij : i ≠ j) (hg : G[i]? = some g) (hg' : G[j]? = some g') (hl : Local E.gc g s) (hl' : Local E.gc g' s') (hs : M[i]? = some s)
    (h32 : g'.obj.v.size ≤ 2 ^ 32) (hs32 : g'.obj.v.shift < 32) (hN : NoTab w.st.fault)
    (hF : inTail c w.st.mem g'.obj.v = g'.obj.v.size → inTail c w.st.mem g.obj.v ≠ 2 ^ c.BL → 2 ^ c.BL < inTail c w.st.mem g.obj.v + g'.obj.v.size → w.st.fault = none) :
    AOut (changeBin c E .appendMove i j g.obj g'.obj w) (fun w' _ => FPost c E er et w [i, j] ((M.set i ⟨s.kd, s.val ++ s'.val⟩).eraseIdx j) w')
      (fun w' => FPost c E er et w [i, j] M w' ∧ w.st.fault ≠ none) := by
  obtain ⟨R, hR, hR2, hR3⟩ := two_perm hij hg hg'
  have sub : ∀ a ∈ [i], a ∈ [i, j] := fun a ha => by simp at ha; simp [ha]
  have hm' := List.mem_of_getElem? hg'
  have a2 := h.sound.tree g' hm'
  have hgo : w.objs[i]? = some g.obj := by rw [h.objs, List.getElem?_map, hg]; rfl
  have hp2 := h.sound.perm ((at_perm hg).1.trans (hR.cons g))
  -- both have been changed
  have fin : ∀ {w2 : World T} {x : Vc} {k : Nat} {N : Tree T}, w2.objs = w.objs.modify i (fun h => { h with v := x }) → w2.next = w.next → Flex.Inv c N (g.l ++ g'.l) → Is x N →
      Inv (sys c E (toks E.gc w.next (acts (g :: G.eraseIdx i)))) w2.st.mem [] (refs x N k ++ (sRefs T er et ++ R.flatMap Gh.refs)) →
      Kept (sys c E (toks E.gc w.next (acts (g :: G.eraseIdx i)))) [] (sRefs T er et ++ R.flatMap Gh.refs) w.st.mem w2.st.mem →
      FPost c E er et w [i, j] ((M.set i ⟨s.kd, s.val ++ s'.val⟩).eraseIdx j) { w2 with objs := w2.objs.eraseIdx j } := by
    intro w2 x k N ho hn hN hx hi hk
    have hact : ∀ {a b : List Nat} {t : Nat}, (toks E.gc w.next a).live t → (toks E.gc w.next b).live t := fun h => absurd h.1 (by rw [hgc]; exact Bool.false_ne_true)
    have hp3 : Sound c E (Flex.Inv c) er et w.st.mem w.next (g' :: g :: R) := hp2.perm (List.Perm.swap _ _ _)
    have hloc : Local E.gc (⟨{ g.obj with v := x }, N, g.l ++ g'.l, 0, g.act⟩ : Gh T) ⟨s.kd, s.val ++ s'.val⟩ := ⟨hl.1, hl.2.1, by show g.l ++ g'.l = _; rw [hl.2.2, hl'.2.2]⟩
    refine ⟨⟨(G.set i ⟨{ g.obj with v := x }, N, g.l ++ g'.l, 0, g.act⟩).eraseIdx j, ?_, f2_erase (f2_set h.loc i hloc) j, ?_⟩, ?_⟩
    · show w2.objs.eraseIdx j = _
      rw [ho, modify_set hgo, h.objs, ← List.eraseIdx_map, List.map_set]
    · show Sound c E _ er et w2.st.mem w2.next _
      rw [hn]
      refine Sound.perm ?_ (hR2 _).symm
      have h0 : Sound c E (Flex.Inv c) er et w2.st.mem w.next (⟨{ g.obj with v := x }, N, g.l ++ g'.l, 0, g.act⟩ :: R) := by
        have hi0 := retokAll hgc 0 hi
        have ha : g.act = false := by rw [hl.2.1, hgc]; rfl
        have hall : ∀ a ∈ g' :: g :: R, a.t = 0 ∧ a.act = false := fun a ha => by
          have : a.act = false := by
            cases hx : a.act with
            | false => rfl
            | true => have := hp3.gc a ha hx; rw [hgc] at this; cases this
          refine ⟨?_, this⟩
          by_contra h0
          rw [(hp3.tok a ha h0).1] at this; cases this
        refine ⟨(inv_shrink hi0 (fun t h => hact h)).permL (last_perm (g := ⟨{ g.obj with v := x }, N, g.l ++ g'.l, 0, g.act⟩)), ?_, ?_, hp3.pos, ?_, ?_, ?_⟩
        · rw [acts_cons, if_neg (by simp [ha])]
          exact (hp3.nodup_tail.sublist (by rw [acts_cons]; split <;> simp))
        · intro t ht
          rw [acts_cons, if_neg (by simp [ha])] at ht
          exact hp3.lt t (acts_tail (acts_tail ht))
        · intro a hm ht
          rcases List.mem_cons.mp hm with rfl | hm
          · exact absurd rfl ht
          · exact absurd (hall a (by simp [hm])).1 ht
        · intro a hm ht
          rcases List.mem_cons.mp hm with rfl | hm
          · have ht : g.act = true := ht
            rw [ha] at ht; cases ht
          · exact hp3.gc a (by simp [hm]) ht
        · intro a hm
          rcases List.mem_cons.mp hm with rfl | hm
          · exact ⟨hN, hx⟩
          · exact hp3.tree a (by simp [hm])
      exact h0
    · intro k o hko hne
      have hp' := (h.sound.perm (at_perm hg).1).first
      refine (kept_keeps' hp' (fun r hr => List.mem_append_right _ ((rest_perm hR).mem_iff.mpr (List.mem_append_right _ hr))) hk).mono fun r hr => ?_
      rw [h.objs, List.getElem?_map] at hko
      cases hgk : G[k]? with
      | none => rw [hgk] at hko; cases hko
      | some gk =>
        rw [hgk] at hko; cases hko
        simp only [List.mem_cons, List.not_mem_nil, or_false, not_or] at hne
        have hm : gk ∈ R := hR3 k gk hne.1 hne.2 hgk
        have : r ∈ gk.refs.map Ref.ptr := by simpa [Gh.refs, VecHeap.refs] using hr
        rw [List.map_append]
        refine List.mem_append_right _ ?_
        obtain ⟨a, ha, rfl⟩ := List.mem_map.mp this
        exact List.mem_map_of_mem (List.mem_flatMap.mpr ⟨gk, hm, ha⟩)
  unfold changeBin
  rw [if_neg hij]
  refine aout_bind (aout_mono (appendL_out hB hE hgc h hg hg' h32 hs32 hN hF hR) (fun _ _ h => h) ?_) ?_
  · rintro w1 ⟨h1, h2, h3, h4⟩
    exact ⟨(back_post hgc h hg hs hl h3 h4 h1.1 h1.2).mono sub, h2⟩
  · rintro w1 ⟨x, th⟩ ⟨⟨b, hap⟩, h2, h3, h4⟩
    rw [bind_setVc]
    cases th with
    | true =>
      rcases hap with hc | ⟨_, hth, _⟩
      · have hc := changed_post hgc h hg hl hR h3 h4 hc
        refine ⟨?_, h2 rfl⟩
        simp only [if_true, hl.2.2, set_same hs] at hc
        exact hc.mono sub
      · cases hth
    | false =>
      simp only [Bool.false_eq_true, if_false]
      rcases hap with ⟨N, b1, -, b3, b4, b5⟩ | ⟨-, -, ⟨utl, hq⟩, hh, m1, hk1, N, b1, -, b3, b4, b5⟩
      · simp only [Bool.false_eq_true, if_false] at b1
        refine aout_bind (aout_mono (aout_lift (w := { w1 with objs := w1.objs.modify i fun h => { h with v := x } }) (fdrop_out (by omega) a2.2 a2.1 (b4.permL (List.perm_append_comm_assoc _ _ _)))) (fun _ _ h => h) (fun _ h => h.1.elim)) ?_
        rintro w2 _ ⟨⟨d1, d2⟩, d3, d4⟩
        exact fin (by rw [d3, ← h3]) (d4.trans h4) b1 b3 d1 ((b5.mono (fun r hr => List.mem_append_right _ hr) fun _ h => h).trans (d2.mono (fun r hr => List.mem_append_right _ hr) fun _ h => h))
      · refine aout_bind (aout_mono (aout_lift (w := { w1 with objs := w1.objs.modify i fun h => { h with v := x } }) (huskDrop_out (k' := g'.t) (L := refs x N g.obj.tok ++ (sRefs T er et ++ R.flatMap Gh.refs)) hgc a2.2 hq (b4.permL ?_) hh)) (fun _ _ h => h) (fun _ h => h.1.elim)) ?_
        · exact List.perm_middle
        rintro w2 _ ⟨⟨d1, d2⟩, d3, d4⟩
        refine fin (by rw [d3, ← h3]) (d4.trans h4) b1 b3 d1 (hk1.trans ((b5.mono (fun r hr => List.mem_cons_of_mem _ hr) fun _ h => by cases h).trans (d2.mono (fun r hr => List.mem_append_right _ hr) fun _ h => h)))

/-- any call with two objects -/
theorem bin_out (hB : 2 ≤ c.B) (hE : E.Fresh) (h : RelG c E (Flex.Inv c) er et w G M) (b : Bin) (hok : ∀ h h', w.objs[i]? = some h → w.objs[j]? = some h' → binOn c E.gc w w.st.fault b h h') :
    AOut (stepBin c E b i j w) (fun w' _ => FPost c E er et w (Spec.hurtBin E.gc b i j) (Spec.stepBin E.gc M b i j) w')
      (fun w' => FPost c E er et w (Spec.hurtBin E.gc b i j) M w' ∧ w.st.fault ≠ none) := by
  unfold stepBin Spec.stepBin
  refine withObj_out (Q := fun M' w' => FPost c E er et w (Spec.hurtBin E.gc b i j) M' w') h (fpost_self h) ?_
  intro g s hg hs hl hk hgo
  rw [hl.1]
  refine withObj_out (Q := fun M' w' => FPost c E er et w (Spec.hurtBin E.gc b i j) M' w') h (fpost_self h) ?_
  intro g' s' hg' hs' hl' hk' hgo'
  have hkk : s.kd.kd = s'.kd.kd := by simpa using hk'
  obtain ⟨h32, hs32, hon⟩ := hok _ _ hgo hgo'
  rw [hl.1] at hon
  have vl : ∀ {a : VecHeap.Spec.SObj T}, a.kd.kd = .value → a.kd = .value := by
    intro a ha
    cases hx : a.kd <;> rw [hx] at ha <;> simp_all [VecHeap.Spec.SKd.kd]
  by_cases hper : b = .plus ∨ (E.gc = true ∧ s.kd.kd = .value)
  · rw [if_pos hper] at hon
    rw [if_pos hper, if_pos hper]
    have hv : s.kd.kd = .value := by
      rcases hper with rfl | hper
      · have : some Kd.value = none ∨ some Kd.value = some s.kd.kd := hk
        exact (Option.some.inj (this.resolve_left (fun h => by cases h))).symm
      · exact hper.2
    exact plus_out hB hE h hg hg' hl hl' (vl hv) (vl (hkk ▸ hv)) h32 hs32 hon
  · rw [if_neg hper] at hon
    rw [if_neg hper, if_neg hper]
    obtain ⟨hgc, hon⟩ := hon
    by_cases hij : i = j
    · unfold changeBin
      rw [if_pos hij, if_pos hij]
      exact fpost_self h
    · rw [if_neg hij]
      unfold Spec.hurtBin
      simp only [hgc, Bool.false_eq_true, if_false]
      cases b with
      | plus => exact absurd (.inl rfl) hper
      | appendTo => exact appendTo_out hB hE hgc h hij hg hg' hl hl' hs h32 hs32 hon.1 hon.2
      | prependTo =>
        unfold changeBin
        rw [if_neg hij]
        exact prepend_out hB hE hgc h hij hg hg' hl hl' hs' h32 hs32 (.inl rfl)
      | appendMove => exact appendMove_out hB hE hgc h hij hg hg' hl hl' hs h32 hs32 hon.1 hon.2
      | prependMove =>
        unfold changeBin
        rw [if_neg hij]
        exact prepend_out hB hE hgc h hij hg hg' hl hl' hs' h32 hs32 (.inr hon)

end
end FlexHeap
