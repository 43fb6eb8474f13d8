import Verif.Champ.Equals
import Verif.Champ.Props

/-!
# Property theorems: equality (C05) and canonical erase (C07)
-/

namespace Champ

variable {K V T P : Type}

/-- **C05.** `==` on two containers built by any two histories is defined, and is true exactly when
the two mathematical maps agree at every key.  `eq` is the element comparison the container passes
(`equal_value`, map.hpp 145-151, table.hpp 180-186, or `Equal` for set); `same` is the pointer comparison
shortcut of `equals_tree`, about which only "same pointer implies same node" is assumed. -/
theorem C05_equality (A : Api K T P) (hA : A.Lawful) (eq : T → T → Bool)
    (eq_refl : ∀ x, eq x x = true)
    (eq_key : ∀ x y, eq x y = true → A.cfg.eqv (A.cfg.key x) (A.cfg.key y) = true)
    (same : A.cfg.N → A.cfg.N → Bool) (hsame : ∀ a b, same a b = true → a = b)
    (ops ops' : List (Op K T P)) :
    ∃ m m' r, run A ops = some m ∧ run A ops' = some m' ∧ Map.equals eq same m m' = some r ∧
      (r = true ↔ ∀ k, Spec.Agree eq (Spec.run A ops k) (Spec.run A ops' k)) := by
  obtain ⟨m, h1, h2, h3⟩ := run_spec hA ops
  obtain ⟨m', h1', h2', h3'⟩ := run_spec hA ops'
  obtain ⟨r, h4, h5⟩ := Map.equals_spec hA.cfg ⟨eq_refl, eq_key⟩ hsame h2 h2'
  refine ⟨m, m', r, h1, h1', h4, h5.trans ?_⟩
  rw [← h3, ← h3']; exact Iff.rfl

/-- `immer::map`'s comparison of elements (map.hpp 145-151) -/
def mapEqualValue (eqv : K → K → Bool) (veq : V → V → Bool) (a b : K × V) : Bool :=
  eqv a.1 b.1 && veq a.2 b.2

/-- **C05 for `immer::map`**: stated with keys and mapped values only. -/
theorem C05_map {B : Nat} {hash : K → BitVec 64} {eqv : K → K → Bool} {dflt : V}
    (hA : (mapApi B hash eqv dflt).Lawful) (veq : V → V → Bool) (veq_refl : ∀ v, veq v v = true)
    (same : (mapApi B hash eqv dflt).cfg.N → (mapApi B hash eqv dflt).cfg.N → Bool)
    (hsame : ∀ a b, same a b = true → a = b) (ops ops' : List (Op K (K × V) V)) :
    let A := mapApi B hash eqv dflt
    ∃ m m' r, run A ops = some m ∧ run A ops' = some m' ∧
      Map.equals (mapEqualValue eqv veq) same m m' = some r ∧
      (r = true ↔ ∀ k, Spec.Agree veq ((Spec.run A ops k).map Prod.snd)
        ((Spec.run A ops' k).map Prod.snd)) := by
  intro A
  have hc := hA.cfg
  obtain ⟨m, h1, h2, h3⟩ := run_spec hA ops
  obtain ⟨m', h1', h2', h3'⟩ := run_spec hA ops'
  have hrefl : ∀ x, mapEqualValue eqv veq x x = true := fun x => by
    have h1 : eqv x.1 x.1 = true := hc.refl x.1
    simp [mapEqualValue, h1, veq_refl]
  obtain ⟨r, h4, h5⟩ := Map.equals_spec hc (eq := mapEqualValue eqv veq) ⟨hrefl, fun x y h => by
    simp only [mapEqualValue, Bool.and_eq_true] at h; exact h.1⟩ hsame h2 h2'
  refine ⟨m, m', r, h1, h1', h4, h5.trans ?_⟩
  rw [← h3, ← h3']
  apply forall_congr'
  intro k
  have hk : ∀ {l : List (K × V)} {x}, look A.cfg l k = some x → eqv x.1 k = true := by
    intro l x h
    exact List.find?_some (p := fun x => A.cfg.eqv (A.cfg.key x) k) h
  show RelOpt _ (look A.cfg m.els k) (look A.cfg m'.els k) ↔ _
  cases ha : look A.cfg m.els k with
  | none => cases look A.cfg m'.els k <;> exact Iff.rfl
  | some x =>
    cases hb : look A.cfg m'.els k with
    | none => exact Iff.rfl
    | some y =>
      have hxy : eqv x.1 y.1 = true := hc.trans _ _ _ (hk ha) (hc.symm _ _ (hk hb))
      simp [RelOpt, Spec.Agree, mapEqualValue, hxy]

/-- `Below c d n d' n'`: `n'`, at `d'` levels above the collision level, is a proper descendant of `n` -/
inductive Below (c : Cfg K T) : Nat → c.N → Nat → c.N → Prop
  | child {d nm dm vs cs ch} : ch ∈ cs → Below c (d + 1) (.inner nm dm vs cs) d ch
  | step {d nm dm vs cs ch d' n'} : ch ∈ cs → Below c d ch d' n' →
      Below c (d + 1) (.inner nm dm vs cs) d' n'

theorem chunks_spec {c : Cfg K T} {d shift p : Nat} {n : c.N} (h : WF c d shift p n) :
    ∃ xss, chunks c d n = some xss ∧ xss.flatten = elems c d n := by
  induction d generalizing shift p n with
  | zero =>
    cases n with
    | inner => exact h.elim
    | collision vs => exact ⟨[vs], rfl, by simp [elems]⟩
  | succ d ih =>
    cases n with
    | collision => exact h.elim
    | inner nm dm vs cs =>
      obtain ⟨hdis, hv, hcs, hvals, hch⟩ := h
      have h1 : ∀ ch ∈ cs, ∃ xss, chunks c d ch = some xss ∧ xss.flatten = elems c d ch := by
        intro ch hm
        obtain ⟨i, hi⟩ := (mem_iff_sget hcs ch).mp hm
        exact ih (hch i ch hi).1
      have h2 : ∃ ys, cs.mapM (chunks c d) = some ys ∧ ys.flatten.flatten = cs.flatMap (elems c d) := by
        clear hch hcs
        induction cs with
        | nil => exact ⟨[], rfl, rfl⟩
        | cons a cs ih2 =>
          obtain ⟨x, hx1, hx2⟩ := h1 a (by simp)
          obtain ⟨ys, hy1, hy2⟩ := ih2 (fun ch hm => h1 ch (by simp [hm]))
          exact ⟨x :: ys, by simp [List.mapM_cons, hx1, hy1], by simp [hx2, hy2]⟩
      obtain ⟨ys, hy1, hy2⟩ := h2
      rw [chunks, slice_all hv, slice_all hcs]
      by_cases hd0 : dm = 0#c.W
      · have hv0 : vs = [] := by
          rw [hd0, popcount_zero] at hv; exact List.eq_nil_of_length_eq_zero hv
        by_cases hn0 : nm = 0#c.W
        · have hc0 : cs = [] := by
            rw [hn0, popcount_zero] at hcs; exact List.eq_nil_of_length_eq_zero hcs
          subst hv0 hc0
          exact ⟨[], by simp [hd0, hn0], by simp [elems]⟩
        · exact ⟨ys.flatten, by simp [hd0, hn0, hy1], by simp [elems, hv0, hy2]⟩
      · by_cases hn0 : nm = 0#c.W
        · have hc0 : cs = [] := by
            rw [hn0, popcount_zero] at hcs; exact List.eq_nil_of_length_eq_zero hcs
          subst hc0
          exact ⟨[vs], by simp [hd0, hn0], by simp [elems]⟩
        · exact ⟨vs :: ys.flatten, by simp [hd0, hn0, hy1], by simp [elems, hy2]⟩

theorem WF.below {c : Cfg K T} {d shift p : Nat} {n : c.N} (h : WF c d shift p n) {d' : Nat} {n' : c.N}
    (hb : Below c d n d' n') : ∃ shift' p', WF c d' shift' p' n' ∧ 2 ≤ (elems c d' n').length := by
  induction hb generalizing shift p with
  | child hm =>
    obtain ⟨i, hi⟩ := (mem_iff_sget h.2.2.1 _).mp hm
    exact ⟨_, _, h.2.2.2.2 i _ hi⟩
  | step hm _ ih =>
    obtain ⟨i, hi⟩ := (mem_iff_sget h.2.2.1 _).mp hm
    exact ih (h.2.2.2.2 i _ hi).1

/-- **C07, structure.** After any history, traversing any node strictly below the root visits at
least two elements (so no chain of single-element nodes is ever retained). -/
theorem C07_no_singleton_nodes (A : Api K T P) (hA : A.Lawful) (ops : List (Op K T P)) :
    ∃ m, run A ops = some m ∧ ∀ d n, Below A.cfg A.cfg.maxDepth m.root d n →
      ∃ xss, chunks A.cfg d n = some xss ∧ 2 ≤ xss.flatten.length := by
  obtain ⟨m, h1, h2, h3⟩ := run_spec hA ops
  refine ⟨m, h1, fun d n hb => ?_⟩
  obtain ⟨s, p, h4, h5⟩ := h2.wf.below hb
  obtain ⟨xss, h6, h7⟩ := chunks_spec h4
  exact ⟨xss, h6, by rw [h7]; exact h5⟩

/-- **C07, erase undoes insert.** Inserting an element whose key was absent and erasing that key
yields a container that compares equal to the original (in both directions). -/
theorem C07_erase_undoes_insert (A : Api K T P) (hA : A.Lawful) (eq : T → T → Bool)
    (eq_refl : ∀ x, eq x x = true)
    (eq_key : ∀ x y, eq x y = true → A.cfg.eqv (A.cfg.key x) (A.cfg.key y) = true)
    (same : A.cfg.N → A.cfg.N → Bool) (hsame : ∀ a b, same a b = true → a = b)
    (ops : List (Op K T P)) (v : T) (k : K) (hk : A.cfg.eqv (A.cfg.key v) k = true)
    (fresh : Spec.run A ops k = none) :
    ∃ m m', run A ops = some m ∧ run A (ops ++ [.insert v, .erase k]) = some m' ∧
      Map.equals eq same m m' = some true ∧ Map.equals eq same m' m = some true ∧
      m'.size = m.size := by
  have hc := hA.cfg
  obtain ⟨m, h1, h2, h3⟩ := run_spec hA ops
  obtain ⟨m', h1', h2', h3'⟩ := run_spec hA (ops ++ [.insert v, .erase k])
  have hlook : look A.cfg m'.els = look A.cfg m.els := by
    rw [h3', h3]
    funext k'
    simp only [Spec.run, List.foldl_append, List.foldl_cons, List.foldl_nil, Spec.step, Spec.erase,
      Spec.insert]
    have hfr : ∀ k', A.cfg.eqv k k' = true → Spec.run A ops k' = none := by
      intro k' hk'
      rw [← h3] at fresh ⊢
      unfold look at fresh ⊢
      rw [← fresh]
      congr 1
      funext x
      exact (eqv_congr_right hc hk').symm
    by_cases hkk : A.cfg.eqv k k' = true
    · simp only [hkk, if_true]; exact (hfr k' hkk).symm
    · have : ¬ A.cfg.eqv (A.cfg.key v) k' = true := fun h =>
        hkk (hc.trans _ _ _ (hc.symm _ _ hk) h)
      simp [hkk, this]
  have he : EqLaw A.cfg eq := ⟨eq_refl, eq_key⟩
  obtain ⟨r, h4, h5⟩ := Map.equals_spec hc he hsame h2 h2'
  obtain ⟨r', h4', h5'⟩ := Map.equals_spec hc he hsame h2' h2
  refine ⟨m, m', h1, h1', ?_, ?_, ?_⟩
  · rw [h4, h5.mpr]; intro k; rw [hlook]; exact relOpt_refl he _
  · rw [h4', h5'.mpr]; intro k; rw [hlook]; exact relOpt_refl he _
  · rw [h2'.size, h2.size]
    exact length_eq_of_look hc (h2'.pairwise hc) (h2.pairwise hc) hlook

/-! ## concrete instances -/

/-- a freshness hypothesis that holds, after a history that left collision nodes behind -/
example : Spec.run exApi exOps 14 = none ∧ exApi.cfg.eqv (exApi.cfg.key (4, 3)) 14 = true := by decide

/-- and the model computes `true`, also for a history in a different order (with `same` never firing) -/
example : (do
    let a ← run exApi exOps
    let b ← run exApi ([.insert (27, 0), .insert (2, 8), .insert (14, 9), .insert (1, 11), .erase 4])
    Map.equals (mapEqualValue exApi.cfg.eqv (· == ·)) (fun _ _ => false) a b) = some true := by
  decide +kernel

example : (do
    let a ← run exApi exOps
    let b ← run exApi ([.insert (27, 0), .insert (2, 8), .insert (1, 12)])
    Map.equals (mapEqualValue exApi.cfg.eqv (· == ·)) (fun _ _ => false) a b) = some false := by
  decide +kernel

/-- there are nodes below the root in reachable maps, so C07's structural claim is not vacuous -/
example : ((run exApi exOps).map fun m => match m.root with
    | .inner _ _ _ cs => cs.length
    | .collision _ => 0) = some 1 := by decide +kernel

end Champ
