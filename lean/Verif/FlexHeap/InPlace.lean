import Verif.VecHeap.InPlace
import Verif.FlexHeap.CostProps

/-!
# Working in place on flexible vectors (C53)
-/

namespace FlexHeap
open Mm Rrb VecHeap

section
variable {T : Type} {c : Cfg} {E : Env Dat T} {X : Elem T} {er et : Nat} {w w1 : World T} {M : List (VecHeap.Spec.SObj T)} {G : List (Gh T)} {i k n e : Nat} {g : Gh T} {s : VecHeap.Spec.SObj T} {kd : Kind}

/-- the tail is not copied, whether it is full or not -/
theorem fspent_push {st : St Dat T} {v : Vc} {o : Nat} (h : Mine E st.mem e v) (ho : ∀ s1 : St Dat T, s1.mem = st.mem → Fc.off c v s1 = .ok s1 o) (x : T) (hs : st.fault = some (kd, n))
    (hn : amt (2 * levels c v.shift + 3) 0 0 (levels c v.shift) kd ≤ n) :
    Spent kd n (fun _ => if v.size - o < 2 ^ c.BL then 0 else amt (2 * levels c v.shift + 3) 0 0 (levels c v.shift) kd) (Fc.pushBackMut c E e v x st) (Fc.pushBackMut c E e v x st.calm) := by
  unfold Fc.pushBackMut
  rw [bind_ok (ho st rfl), bind_ok (ho st.calm rfl)]
  by_cases hr : v.size - o < 2 ^ c.BL
  · rw [if_pos hr, if_pos hr, bind_ok (mutableTail_eq h), bind_ok (mutableTail_eq (s := st.calm) h)]
    exact (uses_bind (uses_construct _ _ _) (Nat.le_refl _) fun _ => uses_ret _ : Uses kd 0 _) st n hs (Nat.zero_le _)
  · rw [if_neg hr, if_neg hr]
    have : Uses kd (amt (2 * levels c v.shift + 3) 0 0 (levels c v.shift) kd) ((leafOf c E (some e) x).bind fun nt =>
        ((Fc.pushTailMut c E e v.root v.shift o v.tail (v.size - o)).bind fun r =>
          M.ret (Vc.mk (v.size + 1) r.1 r.2 nt)).guard (delLeaf c E nt 1)) := by
      uses
    exact this st n hs hn

/-- a call of `push_back` in place: on a transient, or, with reference counts, on an rvalue -/
def PushOn (gc : Bool) (kd : VecHeap.Spec.SKd) (i : Nat) (a : T) (x : Cmd T (FlexOp T)) : Prop :=
  (kd = .transient ∧ x = .applyMut i (.push a)) ∨ (gc = false ∧ kd = .value ∧ x = .applyMove i (.push a))

theorem PushOn.place {a : T} {x : Cmd T (FlexOp T)} (h : PushOn E.gc s.kd i a x) (hg : w.objs[i]? = some g.obj) (hl : Local E.gc g s) (f : Option (Kind × Nat)) :
    fcall c E X er et f x w = inPlace (flexKit T c X) E er et i (own s.kd g.obj) g.obj (.push a) { w with st := { w.st with fault := f } } := by
  rcases h with ⟨hk, rfl⟩ | ⟨hgc, hk, rfl⟩
  · have hkd : g.obj.kd = .transient := by rw [hl.1, hk]; rfl
    simp only [fcall, call, step, withObj]
    rw [hg]
    simp [hkd, own, hk]
  · have hkd : g.obj.kd = .value := by rw [hl.1, hk]; rfl
    simp only [fcall, call, step, withObj]
    rw [hg]
    simp [hkd, hgc, own, hk]

/-- the object of a reached world -/
theorem rel_gh {Good : Tree T → List T → Prop} (h : RelG c E Good er et w G M) (hs : M[i]? = some s) : ∃ g, G[i]? = some g ∧ Local E.gc g s ∧ w.objs[i]? = some g.obj := by
  have h1 := (List.forall₂_iff_get.mp h.loc)
  obtain ⟨hlt, rfl⟩ := List.getElem?_eq_some_iff.mp hs
  have hlt' : i < G.length := by rw [h1.1]; exact hlt
  exact ⟨G[i], List.getElem?_eq_getElem _, h1.2 i hlt' hlt, by rw [h.objs, List.getElem?_map, List.getElem?_eq_getElem hlt']; rfl⟩

theorem PushOn.own {a : T} {x : Cmd T (FlexOp T)} (h : PushOn E.gc s.kd i a x) (hgc : E.gc = true) : s.kd = .transient ∧ VecHeap.own s.kd g.obj = g.obj.tok := by
  rcases h with ⟨hk, -⟩ | ⟨h0, -⟩
  · exact ⟨hk, by rw [VecHeap.own, if_pos hk]⟩
  · rw [hgc] at h0; cases h0

theorem PushOn.on {a : T} {x : Cmd T (FlexOp T)} {q : VecHeap.Spec.SKd} (h : PushOn E.gc q i a x) {f : Option (Kind × Nat)} (hf : NoTab f) : (flexTerms T c X).On E.gc w f x := by
  rcases h with ⟨-, rfl⟩ | ⟨-, -, rfl⟩ <;> exact fun _ _ _ => hf

theorem PushOn.step {a : T} {x : Cmd T (FlexOp T)} (h : PushOn E.gc s.kd i a x) (hs : M[i]? = some s) : (VecHeap.Spec.step (Spec.flexOps T) E.gc M x)[i]? = some ⟨s.kd, s.val ++ [a]⟩ := by
  have hlt := (List.getElem?_eq_some_iff.mp hs).1
  rcases h with ⟨hk, rfl⟩ | ⟨hgc, hk, rfl⟩
  · simp only [VecHeap.Spec.step, VecHeap.Spec.on]
    rw [hs]
    simp only [hk, VecHeap.Spec.SKd.kd, or_true, if_true, Spec.flexOps, Option.map_some, Option.getD_some]
    exact List.getElem?_set_self hlt
  · simp only [VecHeap.Spec.step, VecHeap.Spec.on]
    rw [hs]
    simp only [hk, hgc, VecHeap.Spec.SKd.kd, or_true, if_true, Spec.flexOps, Option.map_some, Option.getD_some, Bool.false_eq_true, if_false]
    exact List.getElem?_set_self hlt

theorem PushOn.allowed {a : T} {x : Cmd T (FlexOp T)} (h : PushOn E.gc s.kd i a x) (hs : M[i]? = some s) : VecHeap.Spec.Allowed (Spec.flexOps T) M x := by
  rcases h with ⟨hk, rfl⟩ | ⟨-, -, rfl⟩
  · refine ⟨fun _ _ h => (by cases h), fun s' hs' => ?_⟩
    rw [hs] at hs'; cases hs'
    rw [hk]; decide
  · exact fun _ _ h => by cases h

/-- **C53**, flexible vectors: a `push_back` in place that follows another one copies no element. -/
theorem C53_flex_push (hB : 0 < c.B) (hE : E.Fresh) (hne : er ≠ et) (h : FReached c E X er et w M) (hs : M[i]? = some s) {a b : T} {x x' : Cmd T (FlexOp T)}
    (hx : PushOn E.gc s.kd i a x) (hx' : PushOn E.gc s.kd i b x') {f : Option (Kind × Nat)} (hf : NoTab f) (hc : fcall c E X er et f x w = .ok w1 ()) :
    AtMost c (flexKit T c X) E er et w1 x' .copy 0 := by
  have hA := flex_laws (T := T) (X := X) hB hE
  have hr := h.rel hA hne
  have h1 : FReached c E X er et w1 (VecHeap.Spec.step (Spec.flexOps T) E.gc M x) := .call h (hx.allowed hs) (hx.on hf) hc
  have hr1 := h1.rel hA hne
  have hst := hx.step hs
  obtain ⟨G, hr⟩ := hr
  obtain ⟨g, hg, hl, hgo⟩ := rel_gh hr hs
  -- the first
  have hm : ∃ v, w1.objs[i]? = some { g.obj with v := v } ∧ Mine E w1.st.mem (own s.kd g.obj) v := by
    have hr' : RelG c E (Flex.Inv c) er et { w with st := { w.st with fault := f } } G M := ⟨hr.objs, hr.loc, hr.sound⟩
    obtain ⟨u, L, hlive, hi⟩ := place_inv hr' hg hl (e := own s.kd g.obj) fun hgc => hx.own hgc
    obtain ⟨hv, his⟩ := hr.sound.tree g (List.mem_of_getElem? hg)
    rw [hl.2.2] at hv
    obtain ⟨t', ht', hv'⟩ := Flex.pushBack_spec hB hv a
    have h2 := fpushBackMut_mine hB hE hlive his hv ht' hi hf
    rw [hx.place hgo hl f] at hc
    simp only [inPlace, flexKit, WM.bind, lift, Mm.M.bind] at hc
    cases hp : Fc.pushBackMut c E (own s.kd g.obj) g.obj.v a { w.st with fault := f } with
    | ub => rw [hp] at hc; cases hc
    | thrown _ => rw [hp] at hc; cases hc
    | ok s1 v1 =>
      rw [hp] at hc h2
      cases hc
      refine ⟨v1, ?_, h2.2⟩
      show (w.objs.modify i _)[i]? = _
      rw [modify_set hgo]
      exact List.getElem?_set_self (List.getElem?_eq_some_iff.mp hgo).1
  -- the second
  obtain ⟨v, hb, hm⟩ := hm
  have hr1' := hr1
  obtain ⟨G1, hr1'⟩ := hr1'
  obtain ⟨g1, hg1, hl1, hgo1⟩ := rel_gh hr1' hst
  obtain hob : g1.obj = { g.obj with v := v } := by rw [hgo1] at hb; exact Option.some.inj hb
  have hown : own s.kd g1.obj = own s.kd g.obj := by rw [hob]; rfl
  obtain ⟨u, L, hlive, hi⟩ := place_inv hr1' hg1 hl1 (e := own s.kd g1.obj) fun hgc => PushOn.own (s := ⟨s.kd, s.val ++ [a]⟩) (g := g1) hx' hgc
  obtain ⟨hv, his⟩ := hr1'.sound.tree g1 (List.mem_of_getElem? hg1)
  obtain ⟨pre, tl, -, hpt⟩ := fparts hB his hv
  have hden : Den (sys c E u) w1.st.mem g1.obj.v.root (.node g1.N.root) := hi.den (r := ⟨g1.obj.v.root, .node g1.N.root, own s.kd g1.obj, false⟩) (by simp [refs])
  have hoff : ∀ s1 : St Dat T, s1.mem = w1.st.mem → Fc.off c g1.obj.v s1 = .ok s1 pre.length := fun s1 hs1 => off_eq hpt his (by rw [hs1]; exact hden)
  refine within_ok hA hr1 (PushOn.allowed (s := ⟨s.kd, s.val ++ [a]⟩) hx' hst) (hx'.on fun _ h => by cases h) fun n hn => ?_
  refine place_within (K := flexKit T c X) (kd := .copy) (k := 0) (q := s.kd) (o := (.push b : FlexOp T)) hgo1 hl1.1 hx' (Nat.zero_le _) ?_
  have h2 : Spent .copy n (fun _ => 0) (Fc.pushBackMut c E (own s.kd g1.obj) g1.obj.v b { w1.st with fault := some (.copy, n) }) (Fc.pushBackMut c E (own s.kd g1.obj) g1.obj.v b w1.st.calm) :=
    spent_mono (fspent_push (st := { w1.st with fault := some (.copy, n) }) (by rw [hown, hob]; exact hm) hoff b rfl (Nat.zero_le _)) fun _ => by split <;> simp [amt]
  exact spent_bind h2 fun s' b n' hs' hn' => spent_mono ((uses_ret _ : Uses .copy 0 _) s' n' hs' (Nat.zero_le _)) fun _ => by omega

theorem push_ok (hB : 0 < c.B) (hE : E.Fresh) (hne : er ≠ et) (h : FReached c E X er et w M) (hs : M[i]? = some s) {a : T} {x : Cmd T (FlexOp T)} (hx : PushOn E.gc s.kd i a x) : ∃ w1, fcall c E X er et none x w = .ok w1 () := by
  have hA := flex_laws (T := T) (X := X) hB hE
  have ho := call_out hA (h.rel hA hne) none x (hx.allowed hs) (hx.on fun _ h => by cases h)
  change AOut (fcall c E X er et none x w) _ _ at ho
  cases hc : fcall c E X er et none x w with
  | ub => rw [hc] at ho; exact ho.elim
  | thrown _ => rw [hc] at ho; exact absurd rfl ho.2
  | ok w1 _ => exact ⟨w1, rfl⟩

end

/-- the hypotheses of `C53_flex_push`: `t.push_back(7); t.push_back(8); t.push_back(9)` -/
example (gc : Bool) : ∃ w w1, FReached c2 (exEnv Nat gc) ⟨true, id⟩ 1 2 w [⟨.transient, [7]⟩] ∧ fcall c2 (exEnv Nat gc) ⟨true, id⟩ 1 2 none (.applyMut 0 (.push 8)) w = .ok w1 () ∧
    AtMost c2 (flexKit Nat c2 ⟨true, id⟩) (exEnv Nat gc) 1 2 w1 (.applyMut 0 (.push 9)) .copy 0 := by
  obtain ⟨w0, h0⟩ : ∃ w0, fcall c2 (exEnv Nat gc) ⟨true, id⟩ 1 2 none (.new .transient) (start c2 (exEnv Nat gc) 1 2) = .ok w0 () := by cases gc <;> exact ⟨_, rfl⟩
  have r0 : FReached c2 (exEnv Nat gc) ⟨true, id⟩ 1 2 w0 [⟨.transient, []⟩] := .call .start (x := .new .transient) trivial trivial h0
  obtain ⟨w, h⟩ := push_ok (i := 0) (s := ⟨.transient, []⟩) (a := 7) (by decide) (exEnv_fresh _ _) (by decide) r0 rfl (.inl ⟨rfl, rfl⟩)
  have r1 : FReached c2 (exEnv Nat gc) ⟨true, id⟩ 1 2 w [⟨.transient, [7]⟩] := .call r0 (PushOn.allowed (E := exEnv Nat gc) (i := 0) (s := ⟨.transient, []⟩) (a := 7) (.inl ⟨rfl, rfl⟩) rfl) (PushOn.on (q := .transient) (a := 7) (i := 0) (.inl ⟨rfl, rfl⟩) fun _ h => by cases h) h
  obtain ⟨w1, h1⟩ := push_ok (i := 0) (s := ⟨.transient, [7]⟩) (a := 8) (by decide) (exEnv_fresh _ _) (by decide) r1 rfl (.inl ⟨rfl, rfl⟩)
  exact ⟨w, w1, r1, h1, C53_flex_push (i := 0) (s := ⟨.transient, [7]⟩) (by decide) (exEnv_fresh _ _) (by decide) r1 rfl (.inl ⟨rfl, rfl⟩) (.inl ⟨rfl, rfl⟩) (fun _ h => by cases h) h1⟩

end FlexHeap
