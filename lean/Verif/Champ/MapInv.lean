import Verif.Champ.Ops
import Verif.Champ.Spec

/-!
# The container invariant and its preservation (helper lemmas)
-/

namespace Champ

variable {K T P σ : Type} {c : Cfg K T}

/-- elements in traversal order -/
def Map.els (m : Map c) : List T := elems c c.maxDepth m.root

/-- the representation invariant of a container -/
structure Map.Inv (m : Map c) : Prop where
  wf : WF c c.maxDepth 0 0 m.root
  size : m.size = m.els.length

theorem maxDepth_pos (hc : c.Lawful) : ∃ d, c.maxDepth = d + 1 := by
  have := maxShift_ge c hc.B_pos
  cases h : c.maxDepth with
  | zero => rw [h] at this; omega
  | succ d => exact ⟨d, rfl⟩

theorem Map.Inv.pairwise (hc : c.Lawful) {m : Map c} (h : m.Inv) :
    m.els.Pairwise (fun a b => c.eqv (c.key a) (c.key b) = false) :=
  h.wf.pairwise hc (by simp)

theorem Map.empty_inv (hc : c.Lawful) : (Map.empty c).Inv := by
  obtain ⟨d, hd⟩ := maxDepth_pos hc
  constructor
  · rw [hd]; exact WF_empty _ _ _
  · simp only [Map.els, hd]; rfl

theorem Map.empty_els (hc : c.Lawful) : (Map.empty c).els = [] := by
  obtain ⟨d, hd⟩ := maxDepth_pos hc
  simp only [Map.els, hd]; rfl

theorem Map.get_eq (hc : c.Lawful) {m : Map c} (h : m.Inv) (k : K) :
    m.get k = some (m.els.find? (fun x => c.eqv (c.key x) k)) := by
  have := getLoop_spec hc h.wf (by simp) (k := k) (by simp [Nat.mod_one])
  simpa [Map.get, Map.els] using this

theorem length_cons_without (hc : c.Lawful) {v : T} {l : List T}
    (hp : l.Pairwise (fun a b => c.eqv (c.key a) (c.key b) = false)) :
    (v :: without (c := c) (c.key v) l).length =
      l.length + (if !hasKey (c := c) (c.key v) l then 1 else 0) := by
  rw [List.length_cons, length_without hc hp]
  cases hh : hasKey (c := c) (c.key v) l with
  | false => simp
  | true =>
    have : l ≠ [] := by rintro rfl; simp [hasKey] at hh
    have := List.length_pos_iff.mpr this
    simp; omega

theorem Map.add_spec (hc : c.Lawful) {m : Map c} (h : m.Inv) (v : T) :
    ∃ m', m.add v = some m' ∧ m'.Inv ∧
      List.Perm m'.els (v :: without (c := c) (c.key v) m.els) := by
  obtain ⟨r, h1, h2, h3⟩ := doAdd_spec hc (d := c.maxDepth) (shift := 0) (p := 0) (by simp) h.wf
    (by simp) (v := v) (by simp [Nat.mod_one])
  refine ⟨⟨r, _⟩, by simp [Map.add, h1]; rfl, ⟨h2, ?_⟩, h3⟩
  show _ = (elems c c.maxDepth r).length
  rw [h3.length_eq, length_cons_without hc (h.wf.pairwise hc (by simp)), h.size]
  simp [Map.els]

theorem Map.update_spec (hc : c.Lawful) (u : Upd K T P σ) {k : K}
    (hu : ∀ y, c.eqv (c.key (u.combine k y)) k = true) {m : Map c} (h : m.Inv) (s : σ) :
    m.update u k s = (m.add (u.combine k (u.fn ((m.els.find? (fun x => c.eqv (c.key x) k)).elim
        u.dflt u.project) s).1)).map
      (fun r => (r, (u.fn ((m.els.find? (fun x => c.eqv (c.key x) k)).elim u.dflt u.project) s).2)) := by
  have := doUpdate_eq hc u hu h.wf (by simp) (by simp [Nat.mod_one]) s
  rw [Map.update, this]
  simp only [Map.add, Map.els]
  rw [hc.hash_eq _ _ (hu _)]
  cases doAdd c c.maxDepth m.root _ (c.hash k) 0 <;> rfl

theorem Map.updateIfExists_spec (hc : c.Lawful) (u : Upd K T P σ) {k : K}
    (hu : ∀ y, c.eqv (c.key (u.combine k y)) k = true) {m : Map c} (h : m.Inv) (s : σ) :
    m.updateIfExists u k s =
      match m.els.find? (fun x => c.eqv (c.key x) k) with
      | none => some (m, s)
      | some x => (m.add (u.combine k (u.fn (u.project x) s).1)).map
          (fun r => (r, (u.fn (u.project x) s).2)) := by
  have := doUpdateIfExists_eq hc u hu h.wf (by simp) (by simp [Nat.mod_one]) s
  rw [Map.updateIfExists, this]
  show _ = match (elems c c.maxDepth m.root).find? _ with | none => _ | some x => _
  cases hf : (elems c c.maxDepth m.root).find? (fun x => c.eqv (c.key x) k) with
  | none => rfl
  | some x =>
    obtain ⟨r, h1, h2, h3⟩ := doAdd_spec hc (d := c.maxDepth) (shift := 0) (p := 0) (by simp) h.wf
      (by simp) (v := u.combine k (u.fn (u.project x) s).1) (by simp [Nat.mod_one])
    have hk : hasKey (c := c) (c.key (u.combine k (u.fn (u.project x) s).1))
        (elems c c.maxDepth m.root) = true := by
      rw [hasKey, List.any_eq_true]
      exact ⟨x, List.mem_of_find?_eq_some hf, hc.trans _ _ _ (by simpa using List.find?_some hf)
        (hc.symm _ _ (hu _))⟩
    rw [hc.hash_eq _ _ (hu _), hk] at h1
    simp only [Map.add, hc.hash_eq _ _ (hu _), h1]
    simp

theorem Map.sub_spec (hc : c.Lawful) {m : Map c} (h : m.Inv) (k : K) :
    ∃ m', m.sub k = some m' ∧ m'.Inv ∧ List.Perm m'.els (without (c := c) k m.els) := by
  obtain ⟨r, h1, h2⟩ := doSub_spec hc (d := c.maxDepth) (shift := 0) (p := 0) (by simp) h.wf
    (by simp) (k := k) (by simp [Nat.mod_one]) (by simp)
  rw [Map.sub, h1]
  cases r with
  | nothing =>
    refine ⟨m, rfl, h, ?_⟩
    show List.Perm (elems c c.maxDepth m.root) (without (c := c) k (elems c c.maxDepth m.root))
    rw [without_of_ne (ne_of_hasKey h2)]
  | singleton x => exact absurd h2.2.1 (by simp)
  | tree r =>
    obtain ⟨hh, h3, h4, _⟩ := h2
    refine ⟨⟨r, m.size - 1⟩, rfl, ⟨h3, ?_⟩, h4⟩
    show m.size - 1 = (elems c c.maxDepth r).length
    rw [h4.length_eq, length_without hc (h.wf.pairwise hc (by simp)), h.size]
    simp [hh, Map.els]

/-! ## lookup functions -/

/-- the partial function represented by a list of elements -/
def look (c : Cfg K T) (l : List T) : K → Option T := fun k => l.find? (fun x => c.eqv (c.key x) k)

theorem look_perm (hc : c.Lawful) {l l' : List T}
    (hp : l.Pairwise (fun a b => c.eqv (c.key a) (c.key b) = false)) (h : List.Perm l l') :
    look c l = look c l' := funext fun _ => find_perm hc hp h

theorem look_without (hc : c.Lawful) (l : List T) (k0 k : K) :
    look c (without (c := c) k0 l) k = if c.eqv k0 k then none else look c l k := by
  unfold look without
  rw [List.find?_filter]
  cases hk : c.eqv k0 k with
  | true =>
    simp only [if_true]
    rw [List.find?_eq_none]
    intro x _
    rw [eqv_congr_right hc hk]; simp
  | false =>
    simp only [Bool.false_eq_true, if_false]
    congr 1
    funext x
    cases hx : c.eqv (c.key x) k0 with
    | false => simp
    | true =>
      have : c.eqv (c.key x) k = false := by
        by_contra hne
        have he : c.eqv (c.key x) k = true := by simpa using hne
        rw [hc.trans _ _ _ (hc.symm _ _ hx) he] at hk; cases hk
      simp [this]

theorem look_cons_without (hc : c.Lawful) (l : List T) (v : T) (k : K) :
    look c (v :: without (c := c) (c.key v) l) k = if c.eqv (c.key v) k then some v else look c l k := by
  have h1 := look_without hc l (c.key v) k
  unfold look at h1 ⊢
  rw [List.find?_cons]
  cases hk : c.eqv (c.key v) k with
  | true => simp
  | false => rw [hk] at h1; simpa using h1

/-! ## all histories -/

variable {A : Api K T P}

theorem upd_law (hA : A.Lawful) (f : P → P) (k : K) (y : P) :
    A.cfg.eqv (A.cfg.key ((A.upd f).combine k y)) k = true := hA.combine_key k y

theorem step_spec (hA : A.Lawful) {m : Map A.cfg} (h : m.Inv) (op : Op K T P) :
    ∃ m', step A m op = some m' ∧ m'.Inv ∧ look A.cfg m'.els = Spec.step A (look A.cfg m.els) op := by
  have hc := hA.cfg
  have hadd : ∀ v, ∃ m', m.add v = some m' ∧ m'.Inv ∧
      look A.cfg m'.els = Spec.insert A (look A.cfg m.els) v := by
    intro v
    obtain ⟨m', h1, h2, h3⟩ := m.add_spec hc h v
    refine ⟨m', h1, h2, ?_⟩
    rw [look_perm hc (h2.pairwise hc) h3]
    funext k
    rw [look_cons_without hc]; rfl
  cases op with
  | insert v => exact hadd v
  | update k f =>
    simp only [step, Spec.step]
    rw [m.update_spec hc (A.upd f) (upd_law hA f k) h ()]
    obtain ⟨m', h1, h2, h3⟩ := hadd (A.combine k (f (match look A.cfg m.els k with
      | some x => A.project x | none => A.dflt)))
    refine ⟨m', ?_, h2, h3⟩
    have he : (A.upd f).combine k ((A.upd f).fn ((m.els.find? (fun x => A.cfg.eqv (A.cfg.key x) k)).elim
        (A.upd f).dflt (A.upd f).project) ()).1 = A.combine k (f (match look A.cfg m.els k with
      | some x => A.project x | none => A.dflt)) := by
      simp only [Api.upd, look]
      cases m.els.find? (fun x => A.cfg.eqv (A.cfg.key x) k) <;> rfl
    rw [he, h1]
    rfl
  | updateIfExists k f =>
    simp only [step, Spec.step]
    rw [m.updateIfExists_spec hc (A.upd f) (upd_law hA f k) h ()]
    have hl : look A.cfg m.els k = m.els.find? (fun x => A.cfg.eqv (A.cfg.key x) k) := rfl
    rw [hl]
    cases m.els.find? (fun x => A.cfg.eqv (A.cfg.key x) k) with
    | none => exact ⟨m, rfl, h, rfl⟩
    | some x =>
      obtain ⟨m', h1, h2, h3⟩ := hadd (A.combine k (f (A.project x)))
      refine ⟨m', ?_, h2, h3⟩
      simp only [Api.upd]
      rw [h1]; rfl
  | erase k =>
    obtain ⟨m', h1, h2, h3⟩ := m.sub_spec hc h k
    refine ⟨m', h1, h2, ?_⟩
    rw [look_perm hc (h2.pairwise hc) h3]
    funext k'
    rw [look_without hc]; rfl

theorem steps_spec (hA : A.Lawful) (ops : List (Op K T P)) {m : Map A.cfg} (h : m.Inv) :
    ∃ m', ops.foldlM (step A) m = some m' ∧ m'.Inv ∧
      look A.cfg m'.els = ops.foldl (Spec.step A) (look A.cfg m.els) := by
  induction ops generalizing m with
  | nil => exact ⟨m, rfl, h, rfl⟩
  | cons op ops ih =>
    obtain ⟨m1, h1, h2, h3⟩ := step_spec hA h op
    obtain ⟨m2, h4, h5, h6⟩ := ih h2
    refine ⟨m2, ?_, h5, ?_⟩
    · rw [List.foldlM_cons, h1]; exact h4
    · rw [List.foldl_cons, ← h3]; exact h6

theorem run_spec (hA : A.Lawful) (ops : List (Op K T P)) :
    ∃ m, run A ops = some m ∧ m.Inv ∧ look A.cfg m.els = Spec.run A ops := by
  obtain ⟨m, h1, h2, h3⟩ := steps_spec hA ops (Map.empty_inv hA.cfg)
  refine ⟨m, h1, h2, ?_⟩
  rw [h3, Map.empty_els hA.cfg]
  rfl

theorem Map.get_look {A : Api K T P} (hA : A.Lawful) {m : Map A.cfg} (h : m.Inv) (k : K) :
    m.get k = some (look A.cfg m.els k) := m.get_eq hA.cfg h k

/-! ## key-distinct lists -/

/-- if every key of `l` occurs in `l'` then `l` is not longer -/
theorem length_le_of_keys (hc : c.Lawful) {l l' : List T}
    (hp : l.Pairwise (fun a b => c.eqv (c.key a) (c.key b) = false))
    (h : ∀ x ∈ l, ∃ y ∈ l', c.eqv (c.key x) (c.key y) = true) : l.length ≤ l'.length := by
  induction l generalizing l' with
  | nil => simp
  | cons a l ih =>
    rw [List.pairwise_cons] at hp
    obtain ⟨y, hy, hay⟩ := h a (by simp)
    obtain ⟨s, t, rfl⟩ := List.append_of_mem hy
    have := ih (l' := s ++ t) hp.2 (by
      intro x hx
      obtain ⟨z, hz, hxz⟩ := h x (by simp [hx])
      refine ⟨z, ?_, hxz⟩
      simp only [List.mem_append, List.mem_cons] at hz ⊢
      rcases hz with hz | rfl | hz
      · exact .inl hz
      · have := hp.1 x hx
        rw [hc.trans _ _ _ hay (hc.symm _ _ hxz)] at this; cases this
      · exact .inr hz)
    simp at this ⊢; omega

theorem look_some_iff (hc : c.Lawful) {l : List T}
    (hp : l.Pairwise (fun a b => c.eqv (c.key a) (c.key b) = false)) {k : K} {x : T} :
    look c l k = some x ↔ x ∈ l ∧ c.eqv (c.key x) k = true := by
  constructor
  · intro h; exact ⟨List.mem_of_find?_eq_some h, by simpa using List.find?_some h⟩
  · rintro ⟨h1, h2⟩; exact find_split hc hp h1 h2

theorem look_isSome_iff {l : List T} {k : K} :
    (look c l k).isSome = true ↔ ∃ x ∈ l, c.eqv (c.key x) k = true := by
  rw [look, List.find?_isSome]

theorem look_none_iff {l : List T} {k : K} :
    look c l k = none ↔ ∀ x ∈ l, c.eqv (c.key x) k = false := by
  rw [look, List.find?_eq_none]; simp

theorem length_eq_of_isSome (hc : c.Lawful) {l l' : List T}
    (hp : l.Pairwise (fun a b => c.eqv (c.key a) (c.key b) = false))
    (hp' : l'.Pairwise (fun a b => c.eqv (c.key a) (c.key b) = false))
    (h : ∀ k, (look c l k).isSome = (look c l' k).isSome) : l.length = l'.length := by
  apply Nat.le_antisymm
  · apply length_le_of_keys hc hp
    intro x hx
    have h1 : (look c l (c.key x)).isSome = true := look_isSome_iff.mpr ⟨x, hx, hc.refl _⟩
    rw [h] at h1
    obtain ⟨y, hy, hk⟩ := look_isSome_iff.mp h1
    exact ⟨y, hy, hc.symm _ _ hk⟩
  · apply length_le_of_keys hc hp'
    intro x hx
    have h1 : (look c l' (c.key x)).isSome = true := look_isSome_iff.mpr ⟨x, hx, hc.refl _⟩
    rw [← h] at h1
    obtain ⟨y, hy, hk⟩ := look_isSome_iff.mp h1
    exact ⟨y, hy, hc.symm _ _ hk⟩

theorem length_eq_of_look (hc : c.Lawful) {l l' : List T}
    (hp : l.Pairwise (fun a b => c.eqv (c.key a) (c.key b) = false))
    (hp' : l'.Pairwise (fun a b => c.eqv (c.key a) (c.key b) = false))
    (h : look c l = look c l') : l.length = l'.length :=
  length_eq_of_isSome hc hp hp' (fun k => by rw [h])

end Champ
