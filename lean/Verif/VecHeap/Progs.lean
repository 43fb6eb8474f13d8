import Verif.VecHeap.World

/-!
# Programs with vectors, of any kind (helper lemmas for C25, C27, C39, C42)
-/

namespace VecHeap
open Mm Rrb

section
variable {T : Type}

/-- the elements constructed in a leaf -/
def lives : List (Slot T) → List T
  | [] => []
  | .live x :: l => x :: lives l
  | _ :: l => lives l

/-- the elements below a node at height `d` -/
def flat (m : Mem Dat T) : Nat → Nat → List T
  | 0, p => match m p with
    | some ⟨_, _, els, .leaf⟩ => lives els
    | _ => []
  | d + 1, p => match m p with
    | some ⟨_, _, _, .inner _ _ ks⟩ => ks.flatMap (flat m d)
    | _ => []

/-- the elements of a vector -/
def contents (c : Cfg) (m : Mem Dat T) (v : Vc) : List T := flat m (levels c v.shift) v.root ++ flat m 0 v.tail

/-- a node of a vector -/
def NodeOf (m : Mem Dat T) (v : Vc) (p : Nat) : Prop := Below m v.root p ∨ Below m v.tail p

theorem lives_raw (k : Nat) : lives (List.replicate k (Slot.raw : Slot T)) = [] := by
  induction k with
  | zero => rfl
  | succ k ih => exact ih

theorem lives_elems {es : List (Slot T)} {xs : List T} (h : Elems es xs) : lives es = xs := by
  obtain ⟨k, rfl⟩ := h
  induction xs with
  | nil => exact lives_raw k
  | cons x xs ih => rw [List.map_cons, List.cons_append, lives, ih]

variable {m m' : Mem Dat T}

theorem below_trans {a b p : Nat} (h : Below m a b) (h' : Below m b p) : Below m a p := by
  induction h' with
  | here => exact h
  | next _ hc ho ih => exact .next ih hc ho

/-- memory with the same nodes reads the same -/
theorem flat_congr : ∀ (d r : Nat), (∀ p, Below m r p → ∃ c c', m p = some c ∧ m' p = some c' ∧ Same c c') → flat m' d r = flat m d r
  | 0, r, h => by
    obtain ⟨⟨rc, tok, els, dat⟩, ⟨rc', tok', els', dat'⟩, h1, h2, h3, h4, h5⟩ := h r .here
    simp only at h3 h4 h5
    subst h3 h4 h5
    rw [flat, flat, h1, h2]
    cases dat' <;> rfl
  | d + 1, r, h => by
    obtain ⟨⟨rc, tok, els, dat⟩, ⟨rc', tok', els', dat'⟩, h1, h2, h3, h4, h5⟩ := h r .here
    simp only at h3 h4 h5
    subst h3 h4 h5
    rw [flat, flat, h1, h2]
    cases dat' with
    | leaf => rfl
    | table => rfl
    | inner cap tb ks =>
      simp only
      rw [List.flatMap_def, List.flatMap_def]
      congr 1
      refine List.map_congr_left fun k hk => flat_congr d k fun p hp => h p ?_
      exact below_trans (.next .here h1 (List.mem_append_right _ hk)) hp

variable {c : Cfg} {E : Env Dat T} {u : Toks E.gc}

theorem flat_den : ∀ (d r : Nat) (N : Node T), Den (sys c E u) m r (.node N) → flat m d r = els d N
  | 0, r, N, h => by
    obtain ⟨⟨rc, tok, es, dat⟩, g', hc, hok, hd⟩ := h.cell
    rw [flat, hc]
    cases dat with
    | leaf =>
      obtain ⟨_, _, xs, h1, h2⟩ := hok
      cases h2
      exact lives_elems h1
    | inner cap tb ks =>
      obtain ⟨_, _, _, rs, Ns, h1, _⟩ := hok
      cases h1
      rfl
    | table cap sz => obtain ⟨_, _, _, _, h1⟩ := hok; cases h1
  | d + 1, r, N, h => by
    obtain ⟨⟨rc, tok, es, dat⟩, g', hc, hok, hd⟩ := h.cell
    rw [flat, hc]
    cases dat with
    | leaf =>
      obtain ⟨_, _, xs, h1, h2⟩ := hok
      cases h2
      rfl
    | inner cap tb ks =>
      obtain ⟨k1, k2, k3, rs, Ns, h1, h2, h3, k4⟩ := hok
      cases h1
      have h4 : ((tb.toList ++ ks).map g') = rs.toList.map Val.table ++ Ns.map Val.node := k4
      rw [List.map_append] at h4
      have h5 : ks.map g' = Ns.map Val.node := by
        refine (List.append_inj h4 ?_).2
        simp only [List.length_map]
        cases tb <;> cases rs <;> simp at h3 ⊢
      simp only
      rw [els]
      have hall : ∀ k ∈ ks, Den (sys c E u) m k (g' k) := fun k hk => hd k (List.mem_append_right _ hk)
      clear h2 h3 h4 hc hd h k1 k2 k3 k4
      induction ks generalizing Ns with
      | nil =>
        cases Ns with
        | nil => rfl
        | cons => cases h5
      | cons k ks ih =>
        cases Ns with
        | nil => cases h5
        | cons N Ns =>
          simp only [List.map_cons, List.cons.injEq] at h5
          rw [List.flatMap_cons, List.flatMap_cons, ih Ns h5.2 (fun k hk => hall k (List.mem_cons_of_mem _ hk)), flat_den d k N (h5.1 ▸ hall k (by simp))]
    | table cap sz => obtain ⟨_, _, _, _, h1⟩ := hok; cases h1

end

section
variable {T : Type} {c : Cfg} {K : Kit T} {S : Spec.Ops K.Op T} {E : Env Dat T} {Good : Tree T → List T → Prop} {Tm : Spec.Terms K.Op} {er et : Nat} {w w' : World T} {M : List (Spec.SObj T)}

/-- Object `i` has the type and contents `s`: memory holds a tree with these elements, and that is what `operator[]` finds. -/
def Shows (c : Cfg) (K : Kit T) (Tm : Spec.Terms K.Op) (w : World T) (i : Nat) (s : Spec.SObj T) : Prop :=
  ∃ o, w.objs[i]? = some o ∧ o.kd = s.kd.kd ∧ o.v.size = s.val.length ∧ contents c w.st.mem o.v = s.val ∧
    (Tm.can o.v → ∀ k < s.val.length, look K i k w = s.val[k]?)

/-- the objects are `M` -/
def ShowsAll (c : Cfg) (K : Kit T) (Tm : Spec.Terms K.Op) (w : World T) (M : List (Spec.SObj T)) : Prop :=
  w.objs.length = M.length ∧ ∀ i s, M[i]? = some s → Shows c K Tm w i s

/-- Worlds that allowed calls lead to, with the objects there should be.  When a call throws there may be more than one
possibility; then it is the one that is there. -/
inductive Reached (c : Cfg) (K : Kit T) (S : Spec.Ops K.Op T) (Tm : Spec.Terms K.Op) (E : Env Dat T) (er et : Nat) : World T → List (Spec.SObj T) → Prop
  | start : Reached c K S Tm E er et (start c E er et) []
  | call {w w' : World T} {M : List (Spec.SObj T)} {f : Option (Kind × Nat)} {x : Cmd T K.Op} : Reached c K S Tm E er et w M → Spec.Allowed S M x → Tm.On E.gc w f x → call c K E er et f x w = .ok w' () →
      Reached c K S Tm E er et w' (Spec.step S E.gc M x)
  | threw {w w' : World T} {M M' : List (Spec.SObj T)} {f : Option (Kind × Nat)} {x : Cmd T K.Op} : Reached c K S Tm E er et w M → Spec.Allowed S M x → Tm.On E.gc w f x → call c K E er et f x w = .thrown w' →
      M' ∈ Spec.failed S E.gc M f x → ShowsAll c K Tm w' M' → Reached c K S Tm E er et w' M'

theorem Gh.contents (hA : Laws c E K S Good Tm) {m : Mem Dat T} {next : Nat} {G : List (Gh T)} {g : Gh T} (h : Sound c E Good er et m next G) (hg : g ∈ G) : contents c m g.obj.v = g.l := by
  unfold VecHeap.contents
  have := h.tree g hg
  rw [flat_den _ _ _ (h.denRoot hg), flat_den _ _ _ (h.denTail hg), this.2.shift]
  exact hA.els this.1

theorem Rel.shows (hA : Laws c E K S Good Tm) (h : Rel c E Good er et w M) : ShowsAll c K Tm w M := by
  obtain ⟨G, h⟩ := h
  refine ⟨by rw [h.objs, List.length_map, h.loc.length_eq], ?_⟩
  intro i s hs
  obtain ⟨g, hg, h1, h2, h3⟩ := f2_get' h.loc hs
  have hmem := List.mem_of_getElem? hg
  have hm := h.sound.tree g hmem
  have ho : w.objs[i]? = some g.obj := by rw [h.objs, List.getElem?_map, hg]; rfl
  refine ⟨g.obj, ho, h1, ?_, ?_, ?_⟩
  · rw [hm.2.size, hA.size hm.1, h3]
  · rw [Gh.contents hA h.sound hmem, h3]
  · intro hc k hk
    unfold look
    rw [ho]
    simp only
    rw [hA.get hm.1 hm.2 hc (by rw [h3]; exact hk) (h.sound.denRoot hmem) (h.sound.denTail hmem), List.getElem?_eq_getElem hk]
    simp only [h3]

theorem shows_eq {M' : List (Spec.SObj T)} (h : ShowsAll c K Tm w M) (h' : ShowsAll c K Tm w M') (hk : M.map Spec.SObj.kd = M'.map Spec.SObj.kd) : M = M' := by
  apply List.ext_getElem?
  intro i
  cases hs : M[i]? with
  | none =>
    rw [List.getElem?_eq_none_iff] at hs
    rw [eq_comm, List.getElem?_eq_none_iff]
    have := congrArg List.length hk
    simp only [List.length_map] at this
    omega
  | some s =>
    have hlt := getElem?_lt hs
    have hlen : M.length = M'.length := by simpa using congrArg List.length hk
    have hs' : M'[i]? = some (M'[i]'(by omega)) := List.getElem?_eq_getElem _
    have hki : (M.map Spec.SObj.kd)[i]? = (M'.map Spec.SObj.kd)[i]? := by rw [hk]
    rw [List.getElem?_map, List.getElem?_map, hs, hs'] at hki
    obtain ⟨o, h1, _, _, h2, _⟩ := h.2 i s hs
    obtain ⟨o', h1', _, _, h2', _⟩ := h'.2 i _ hs'
    rw [h1] at h1'; cases h1'
    rw [hs']
    congr 1
    obtain ⟨k1, v1⟩ := s
    generalize M'[i]'(by omega) = s' at *
    obtain ⟨k2, v2⟩ := s'
    simp only [Option.map_some, Option.some.injEq] at hki
    simp only at h2 h2'
    rw [hki, ← h2, ← h2']

theorem map_set_kd {i : Nat} {s : Spec.SObj T} (hs : M[i]? = some s) (v : List T) : (M.set i ⟨s.kd, v⟩).map Spec.SObj.kd = M.map Spec.SObj.kd := by
  rw [List.map_set, set_same (by rw [List.getElem?_map, hs]; rfl)]

theorem failed_kinds {gc : Bool} {f : Option (Kind × Nat)} {x : Cmd T K.Op} {M' : List (Spec.SObj T)} (ha : Spec.Allowed S M x) (h : M' ∈ Spec.failed S gc M f x) : M'.map Spec.SObj.kd = M.map Spec.SObj.kd := by
  have one : ∀ {M'}, M' ∈ [M] → M'.map Spec.SObj.kd = M.map Spec.SObj.kd := fun h => by rw [List.mem_singleton.mp h]
  cases x with
  | new | ofRange | copy | move | assign | moveAssign | destroy | transient | persistent | persistentMove | apply => exact one h
  | transientMove i =>
    rw [Spec.failed, List.mem_singleton] at h
    subst h
    unfold Spec.on
    cases hs : M[i]? with
    | none => rfl
    | some s =>
      simp only
      split
      · rename_i hk
        have := value_of hk
        have e := map_set_kd hs ([] : List T)
        rw [this] at e
        exact e
      · rfl
  | applyMut i o =>
    rw [Spec.failed] at h
    rcases List.mem_cons.mp h with rfl | h
    · rfl
    · split at h
      swap
      · cases h
      rw [List.mem_singleton] at h
      subst h
      unfold Spec.on
      cases hs : M[i]? with
      | none => rfl
      | some s =>
        simp only
        split
        · rename_i hk
          have := transient_of hk hs ha.2
          cases S.left o s.val with
          | none => rfl
          | some l =>
            have e := map_set_kd hs l
            rw [this] at e
            exact e
        · rfl
  | applyMove i o =>
    rw [Spec.failed] at h
    rcases List.mem_cons.mp h with rfl | h
    · rfl
    · split at h
      swap
      · cases h
      rw [List.mem_singleton] at h
      subst h
      unfold Spec.on
      cases hs : M[i]? with
      | none => rfl
      | some s =>
        simp only
        split
        · rename_i hk
          have := value_of hk
          cases S.left o s.val with
          | none => rfl
          | some l =>
            simp only [Option.map_some, Option.getD_some]
            split
            · rfl
            · have e := map_set_kd hs l
              rw [this] at e
              exact e
        · rfl

theorem Reached.rel (hA : Laws c E K S Good Tm) (hne : er ≠ et) (h : Reached c K S Tm E er et w M) : Rel c E Good er et w M := by
  induction h with
  | start => exact start_rel hne
  | @call w w' M f x _ ha ho hc ih =>
    have := call_out hA ih f x ha ho
    rw [hc] at this
    exact this.1
  | @threw w w' M M' f x _ ha ho hc hM hsh ih =>
    have := call_out hA ih f x ha ho
    rw [hc] at this
    obtain ⟨⟨M1, h1, h2⟩, _⟩ := this
    rw [shows_eq hsh (h2.1.shows hA) ((failed_kinds ha hM).trans (failed_kinds ha h1).symm)]
    exact h2.1

/-- a call that throws leaves one of the possibilities -/
theorem Reached.thrown (hA : Laws c E K S Good Tm) (hne : er ≠ et) (h : Reached c K S Tm E er et w M) {f : Option (Kind × Nat)} {x : Cmd T K.Op} (ha : Spec.Allowed S M x) (ho : Tm.On E.gc w f x)
    (hw : VecHeap.call c K E er et f x w = .thrown w') : ∃ M' ∈ Spec.failed S E.gc M f x, Reached c K S Tm E er et w' M' := by
  have := call_out hA (h.rel hA hne) f x ha ho
  rw [hw] at this
  obtain ⟨⟨M', h1, h2⟩, _⟩ := this
  exact ⟨M', h1, .threw h ha ho hw h1 (h2.1.shows hA)⟩

/-- the calls of a program are on the terms -/
def AllOn (c : Cfg) (K : Kit T) (Tm : Spec.Terms K.Op) (E : Env Dat T) (er et : Nat) : World T → List (Option (Kind × Nat) × Cmd T K.Op) → Prop
  | _, [] => True
  | w, (f, x) :: xs => Tm.On E.gc w f x ∧ ∀ w', VecHeap.call c K E er et f x w = .ok w' () ∨ VecHeap.call c K E er et f x w = .thrown w' → AllOn c K Tm E er et w' xs

theorem allOn_free {can : Vc → Prop} : ∀ (xs : List (Option (Kind × Nat) × Cmd T K.Op)) (w : World T), AllOn c K (.free can) E er et w xs
  | [], _ => trivial
  | _ :: xs, _ => ⟨Spec.Terms.free_on _, fun w' _ => allOn_free xs w'⟩

/-- programs reach worlds -/
theorem run_reached (hA : Laws c E K S Good Tm) (hne : er ≠ et) : ∀ (xs : List (Option (Kind × Nat) × Cmd T K.Op)) (w : World T) (M : List (Spec.SObj T)), Reached c K S Tm E er et w M → Spec.AllAllowed S E.gc M xs → AllOn c K Tm E er et w xs →
    ∃ w' fl M', run c K E er et xs w = some (w', fl) ∧ fl.length = xs.length ∧ (∀ p ∈ xs.zip fl, p.2 = true → p.1.1 ≠ none) ∧
      Spec.Runs S E.gc M (xs.zip fl) M' ∧ Reached c K S Tm E er et w' M'
  | [], w, M, h, _, _ => ⟨w, [], M, rfl, rfl, (fun p hp => by cases hp), rfl, h⟩
  | (f, x) :: xs, w, M, h, ha, ho => by
    obtain ⟨h1, h2, h3⟩ := ha
    have hc := call_out hA (h.rel hA hne) f x h1 ho.1
    rw [run]
    cases hx : VecHeap.call c K E er et f x w with
    | ok w1 u =>
      obtain ⟨w', fl, M', k1, k2, k3, k4, k5⟩ := run_reached hA hne xs w1 _ (.call h h1 ho.1 hx) h2 (ho.2 w1 (.inl hx))
      refine ⟨w', false :: fl, M', by show Option.map _ (run c K E er et xs w1) = _; rw [k1]; rfl, by simp [k2], ?_, k4, k5⟩
      intro p hp
      rw [List.zip_cons_cons] at hp
      rcases List.mem_cons.mp hp with rfl | hp
      · exact fun h => by cases h
      · exact k3 p hp
    | thrown w1 =>
      rw [hx] at hc
      obtain ⟨M1, hM1, hR⟩ := h.thrown hA hne h1 ho.1 hx
      obtain ⟨w', fl, M', k1, k2, k3, k4, k5⟩ := run_reached hA hne xs w1 _ hR (h3 hc.2 M1 hM1) (ho.2 w1 (.inr hx))
      refine ⟨w', true :: fl, M', by show Option.map _ (run c K E er et xs w1) = _; rw [k1]; rfl, by simp [k2], ?_, ⟨M1, hM1, k4⟩, k5⟩
      intro p hp
      rw [List.zip_cons_cons] at hp
      rcases List.mem_cons.mp hp with rfl | hp
      · exact fun _ => hc.2
      · exact k3 p hp
    | ub => rw [hx] at hc; exact hc.elim

/-- what is not the object a call works on, and every node of it, stays -/
theorem call_keeps (hA : Laws c E K S Good Tm) (h : Rel c E Good er et w M) {f : Option (Kind × Nat)} {x : Cmd T K.Op} (ha : Spec.Allowed S M x) (ho : Tm.On E.gc w f x)
    (hw : call c K E er et f x w = .ok w' () ∨ call c K E er et f x w = .thrown w') {j : Nat} {o : Obj} (hj : w.objs[j]? = some o) (hne : Spec.hurt E.gc x ≠ some j) :
    (∀ p, NodeOf w.st.mem o.v p → ∃ c c', w.st.mem p = some c ∧ w'.st.mem p = some c' ∧ c'.data = c.data ∧ c'.els = c.els ∧ c'.tok = c.tok) ∧
      contents c w'.st.mem o.v = contents c w.st.mem o.v := by
  have hc := call_out hA h f x ha ho
  have hk : Keeps w.st.mem w'.st.mem (rootsBut (Spec.hurt E.gc x) w.objs) := by
    rcases hw with hw | hw <;> rw [hw] at hc
    · exact hc.2
    · obtain ⟨⟨_, _, hc⟩, _⟩ := hc
      exact hc.2
  have hr : ∀ r ∈ [o.v.root, o.v.tail], r ∈ rootsBut (Spec.hurt E.gc x) w.objs := by
    intro r hr
    unfold rootsBut
    cases hh : Spec.hurt E.gc x with
    | none => exact List.mem_flatMap.mpr ⟨o, List.mem_of_getElem? hj, hr⟩
    | some i =>
      refine List.mem_flatMap.mpr ⟨o, List.mem_eraseIdx_iff_getElem?.mpr ⟨j, ?_, hj⟩, hr⟩
      rintro rfl
      exact hne hh
  have h1 := hk _ (hr o.v.root (by simp))
  have h2 := hk _ (hr o.v.tail (by simp))
  refine ⟨fun p hp => ?_, ?_⟩
  · rcases hp with hp | hp
    · obtain ⟨c, c', k1, k2, k3⟩ := h1 p hp
      exact ⟨c, c', k1, k2, k3⟩
    · obtain ⟨c, c', k1, k2, k3⟩ := h2 p hp
      exact ⟨c, c', k1, k2, k3⟩
  · unfold contents
    rw [flat_congr _ _ h1, flat_congr _ _ h2]

/-! ### Tokens -/

variable {G : List (Gh T)} {g : Gh T} {i : Nat}

theorem nodeOf_from {m : Mem Dat T} {next p : Nat} (h : Sound c E Good er et m next G) (hg : g ∈ G) (hp : NodeOf m g.obj.v p) : ∃ r ∈ sRefs T er et ++ G.flatMap Gh.refs, r.tok = g.t ∧ From (sys c E (toks E.gc next (acts G))) m r.ptr p := by
  rcases hp with hp | hp
  · exact ⟨⟨g.obj.v.root, .node g.N.root, g.t, false⟩, h.mem hg (by unfold Gh.refs VecHeap.refs; simp), rfl, below_from.mp hp⟩
  · exact ⟨⟨g.obj.v.tail, .node g.N.tail, g.t, false⟩, h.mem hg (by unfold Gh.refs VecHeap.refs; simp), rfl, below_from.mp hp⟩

/-- a node of an object that belongs to a transient in use belongs to that object -/
theorem Sound.tok_of {m : Mem Dat T} {next : Nat} (h : Sound c E Good er et m next G) (hg : g ∈ G) {p : Nat} (hp : NodeOf m g.obj.v p) {cl : Cell Dat T} (hc : m p = some cl)
    (hl : (toks E.gc next (acts G)).live cl.tok) : g.act = true ∧ cl.tok = g.obj.tok := by
  obtain ⟨r, hr, hrt, hrf⟩ := nodeOf_from h hg hp
  obtain ⟨B, J, gg, hJ, hi⟩ := h.inv
  obtain ⟨c', h1, h2⟩ := good_chain hi (hi.mem_of_ref hr) hrf cl hc hl
  have h3 := hi.refTok _ hr c' h1 (by rw [h2]; exact hl)
  have h4 : cl.tok = g.t := (h2.symm.trans h3).trans hrt
  have h5 : g.t ≠ 0 := by
    intro h0
    rw [h4, h0] at hl
    exact (toks E.gc next (acts G)).live0 hl
  obtain ⟨h6, h7⟩ := h.tok g hg h5
  exact ⟨h6, h4.trans h7⟩

/-- tokens of nodes are older than new ones -/
theorem Sound.tok_lt {m : Mem Dat T} {next : Nat} (hgc : E.gc = true) (h : Sound c E Good er et m next G) (hg : g ∈ G) {p : Nat} (hp : NodeOf m g.obj.v p) {cl : Cell Dat T} (hc : m p = some cl) :
    cl.tok < next := by
  by_contra hn
  have hl : (toks E.gc next (acts G)).live cl.tok := ⟨hgc, by have := h.pos; omega, .inr (by omega)⟩
  obtain ⟨h1, h2⟩ := h.tok_of hg hp hc hl
  have := (h.lt _ (acts_mem hg h1)).2
  omega

/-- a node that an operation on a transient changes has its token -/
theorem only_owner (hA : Laws c E K S Good Tm) (hgc : E.gc = true) (h : Rel c E Good er et w M) {f : Option (Kind × Nat)} {o : K.Op} (ha : Spec.Allowed S M (.applyMut i o)) (ho : Tm.On E.gc w f (.applyMut i o))
    (hw : call c K E er et f (.applyMut i o) w = .ok w' () ∨ call c K E er et f (.applyMut i o) w = .thrown w') {oi : Obj} (hi : w.objs[i]? = some oi) {j : Nat} {oj : Obj} (hj : w.objs[j]? = some oj)
    {p : Nat} (hp : NodeOf w.st.mem oj.v p) {cl : Cell Dat T} (hc : w.st.mem p = some cl) (ht : cl.tok ≠ oi.tok) :
    ∃ c', w'.st.mem p = some c' ∧ c'.data = cl.data ∧ c'.els = cl.els ∧ c'.tok = cl.tok := by
  by_cases hij : i = j
  · subst hij
    rw [hi] at hj; cases hj
    obtain ⟨G, hr⟩ := h
    have hgo : ∃ g, G[i]? = some g ∧ g.obj = oi := by
      rw [hr.objs, List.getElem?_map] at hi
      cases hx : G[i]? with
      | none => rw [hx] at hi; cases hi
      | some g => rw [hx] at hi; cases hi; exact ⟨g, rfl, rfl⟩
    obtain ⟨g, hg, rfl⟩ := hgo
    obtain ⟨s, hs, hl⟩ := f2_get hr.loc hg
    have hmem := List.mem_of_getElem? hg
    have hgt := hr.sound.tree g hmem
    have hun : ¬ (toks E.gc w.next (acts G)).live cl.tok := fun hlv => ht (hr.sound.tok_of hmem hp hc hlv).2
    by_cases hk : s.kd = .transient
    · have hact : g.act = true := by rw [hl.2.1, hgc, hk]; rfl
      obtain ⟨r0, hr0, _, hrf⟩ := nodeOf_from hr.sound hmem hp
      obtain ⟨v, hv⟩ := inv_watch (Y := sys c E (toks E.gc w.next (acts G))) hgc hr.sound.inv (by
          intro r hr'
          rcases List.mem_append.mp hr' with hr' | hr'
          · simp only [sRefs, List.mem_cons, List.not_mem_nil, or_false] at hr'
            rcases hr' with rfl | rfl <;> rfl
          · obtain ⟨g', _, hr'⟩ := List.mem_flatMap.mp hr'
            simp only [Gh.refs, VecHeap.refs, List.mem_cons, List.not_mem_nil, or_false] at hr'
            rcases hr' with rfl | rfl <;> rfl)
        (p := p) ⟨r0, hr0, hrf⟩ (by intro c' hc'; rw [hc] at hc'; cases hc'; exact hun)
      have hlive : (toks E.gc w.next (acts G)).live g.obj.tok := by
        have := acts_mem hmem hact
        exact ⟨hgc, (hr.sound.lt _ this).1, .inl this⟩
      have hpm : (⟨p, v, 0, false⟩ :: (sRefs T er et ++ G.flatMap Gh.refs) : List (Ref (Val T))).Perm (VecHeap.refs g.obj.v g.N g.t ++ (⟨p, v, 0, false⟩ :: (sRefs T er et ++ (G.eraseIdx i).flatMap Gh.refs))) := by
        have h1 := (((at_perm hg).1.flatMap_right Gh.refs).append_left (sRefs T er et)).trans (last_perm (g := g)).symm
        exact (h1.cons _).trans (by simpa only [List.singleton_append] using List.perm_append_comm_assoc [(⟨p, v, 0, false⟩ : Ref (Val T))] (VecHeap.refs g.obj.v g.N g.t) (sRefs T er et ++ (G.eraseIdx i).flatMap Gh.refs))
      have hinv := hv.permL hpm
      have hinv : Inv (sys c E (toks E.gc w.next (acts G))) w.st.mem [] (VecHeap.refs g.obj.v g.N g.obj.tok ++ (⟨p, v, 0, false⟩ :: (sRefs T er et ++ (G.eraseIdx i).flatMap Gh.refs))) := by
        by_cases h0 : g.t = 0
        · exact inv_retoks hinv (by rw [h0]; exact (toks E.gc w.next _).live0) _
        · have := (hr.sound.tok g hmem h0).2
          rw [← this]; exact hinv
      obtain ⟨l', hrun⟩ := legal_run hs ha.1
      have hout := hA.applyMut (s := { w.st with fault := f }) (er := er) (et := et) (fun _ => hlive) hgt.1 hgt.2 (by rw [hl.2.2]; exact hrun) (ho _ hi)
        ⟨List.mem_cons_of_mem _ statics_mem.1, List.mem_cons_of_mem _ statics_mem.2⟩ hinv
      have hkd : g.obj.kd = .transient := by rw [hl.1, hk]; rfl
      have hcall : call c K E er et f (.applyMut i o) w = inPlace K E er et i g.obj.tok g.obj o { w with st := { w.st with fault := f } } := by
        unfold call
        rw [step]
        unfold withObj
        simp only [hi, hkd, or_true, if_true]
      rw [hcall] at hw
      unfold inPlace WM.bind lift at hw
      simp only at hw
      have fin : ∀ {O : List Nat} {m' : Mem Dat T}, Kept (sys c E (toks E.gc w.next (acts G))) O (⟨p, v, 0, false⟩ :: (sRefs T er et ++ (G.eraseIdx i).flatMap Gh.refs)) w.st.mem m' →
          ∃ c', m' p = some c' ∧ c'.data = cl.data ∧ c'.els = cl.els ∧ c'.tok = cl.tok := by
        intro O m' hkept
        obtain ⟨c', h1, h2⟩ := hkept.1 p ⟨⟨p, v, 0, false⟩, List.mem_cons_self, .here⟩ cl hc
        exact ⟨c', h1, h2⟩
      cases hx : K.applyMut E er et g.obj.tok g.obj.v o { w.st with fault := f } with
      | ub => rw [hx] at hout; exact hout.elim
      | thrown s' =>
        rw [hx] at hw hout
        simp only [reduceCtorEq, false_or, Ans.thrown.injEq] at hw
        subst hw
        exact fin hout.2
      | ok s' r =>
        rw [hx] at hw hout
        obtain ⟨v', r⟩ := r
        simp only [setVc] at hw
        cases r with
        | none =>
          obtain ⟨t', _, _, _, hkept⟩ := hout
          simp only [WM.ret, Ans.ok.injEq, reduceCtorEq, or_false] at hw
          obtain ⟨rfl, _⟩ := hw
          exact fin hkept
        | some q =>
          obtain ⟨q, jj, fn⟩ := q
          obtain ⟨cl', x, h1, h2, ⟨_, _, _, _, h3⟩, h4⟩ := hout
          simp only at hw
          have happ := applyFn_out fn h1 h2
          cases hy : applyFn fn q jj s' with
          | ub => rw [hy] at happ; exact happ.elim
          | ok s2 _ =>
            rw [hy] at hw happ
            simp only [Ans.ok.injEq, reduceCtorEq, or_false] at hw
            obtain ⟨rfl, _⟩ := hw
            have happ : s2.mem = _ := happ
            show ∃ c', s2.mem p = some c' ∧ _
            rw [happ]
            exact fin h3
          | thrown s2 =>
            rw [hy] at hw happ
            simp only [reduceCtorEq, false_or, Ans.thrown.injEq] at hw
            subst hw
            obtain ⟨_, _, ⟨_, _, _, _, h5⟩⟩ := h4 happ.1
            show ∃ c', s2.mem p = some c' ∧ _
            rw [happ.2.1]
            exact fin h5
    · -- not a transient: nothing happens
      have hkd : g.obj.kd = .value := by
        rw [hl.1]
        cases hh : s.kd with
        | value => rfl
        | transient => exact absurd hh hk
        | shell => exact absurd hh (ha.2 s hs)
      have hcall : call c K E er et f (.applyMut i o) w = .ok { w with st := { w.st with fault := f } } () := by
        unfold call
        rw [step]
        unfold withObj
        simp only [hi, hkd, Option.some.injEq, reduceCtorEq, or_self, if_false]
      rw [hcall] at hw
      rcases hw with hw | hw
      · cases hw
        exact ⟨cl, hc, rfl, rfl, rfl⟩
      · cases hw
  · obtain ⟨c1, c', h1, h2, h3⟩ := (call_keeps hA h ha ho hw hj (by
      show some i ≠ some j
      intro hh; cases hh; exact hij rfl)).1 p hp
    rw [hc] at h1; cases h1
    exact ⟨c', h2, h3⟩

/-- after `persistent()` no node has the token of the transient -/
theorem persistent_gives_up (hA : Laws c E K S Good Tm) (hgc : E.gc = true) (h : Rel c E Good er et w M) {f : Option (Kind × Nat)} (ha : Spec.Allowed S M (.persistent i))
    (hw : call c K E er et f (.persistent i) w = .ok w' ()) {oi : Obj} (hi : w'.objs[i]? = some oi) (hkd : oi.kd = .transient) {o : Obj} (ho : o ∈ w'.objs)
    {p : Nat} (hp : NodeOf w'.st.mem o.v p) {cl : Cell Dat T} (hc : w'.st.mem p = some cl) : cl.tok ≠ oi.tok := by
  obtain ⟨G, hr⟩ := h
  have hc0 := call_out hA ⟨G, hr⟩ f (.persistent i) ha trivial
  rw [hw] at hc0
  have hkeep : Keeps w.st.mem w'.st.mem (rootsBut none w.objs) := hc0.2
  unfold call at hw
  rw [step] at hw
  unfold withObj at hw
  simp only at hw
  cases hwi : w.objs[i]? with
  | none =>
    rw [hwi] at hw
    cases hw
    rw [hwi] at hi; cases hi
  | some o1 =>
    rw [hwi] at hw
    simp only [reduceCtorEq, false_or] at hw
    by_cases hk1 : (some Kd.transient = some o1.kd)
    · rw [if_pos hk1] at hw
      -- the new token is new
      have h1 := ownerFor_out (E := E) (w := { w with st := { w.st with fault := f } }) .transient
      unfold WM.bind at hw
      simp only at hw
      cases hx : ownerFor E .transient { w with st := { w.st with fault := f } } with
      | ub => rw [hx] at hw; cases hw
      | thrown s' => rw [hx] at hw; cases hw
      | ok w1 t =>
        rw [hx] at hw h1
        obtain ⟨h2, h3, h4, h5, _⟩ := h1
        have h5 : w.next ≤ t := (h5 rfl).1
        simp only at h3
        simp only [setOwner] at hw
        have hobjs : w'.objs = w.objs.modify i (fun h => { h with tok := t }) ++ [⟨.value, o1.v, 0⟩] := by
          unfold lift Vc.copy Mm.M.bind at hw
          simp only at hw
          cases hy : Vc.share E o1.v w1.st with
          | ub => rw [hy] at hw; cases hw
          | thrown s' => rw [hy] at hw; cases hw
          | ok s' _ =>
            rw [hy] at hw
            simp only [Mm.M.ret, push, Ans.ok.injEq] at hw
            obtain ⟨rfl, _⟩ := hw
            simp only [h3]
        have htok : oi.tok = t := by
          have hlt : i < w.objs.length := (List.getElem?_eq_some_iff.mp hwi).1
          rw [hobjs, List.getElem?_append_left (by simpa using hlt), List.getElem?_modify_eq, hwi] at hi
          cases hi; rfl
        -- the trees are those there were
        obtain ⟨y, hy, hyv⟩ : ∃ y ∈ w.objs, o.v = y.v := by
          rw [hobjs] at ho
          rcases List.mem_append.mp ho with ho | ho
          · obtain ⟨n, hn⟩ := List.mem_iff_getElem?.mp ho
            rw [List.getElem?_modify] at hn
            cases hm : w.objs[n]? with
            | none => rw [hm] at hn; cases hn
            | some y =>
              rw [hm] at hn
              refine ⟨y, List.mem_of_getElem? hm, ?_⟩
              cases hn
              split <;> rfl
          · rw [List.mem_singleton] at ho
            subst ho
            exact ⟨o1, List.mem_of_getElem? hwi, rfl⟩
        have hroot : ∀ r ∈ [y.v.root, y.v.tail], r ∈ rootsBut none w.objs := fun r hr => List.mem_flatMap.mpr ⟨y, hy, hr⟩
        have hp' : NodeOf w.st.mem y.v p := by
          rw [hyv] at hp
          rcases hp with hp | hp
          · exact .inl ((below_congr (hkeep _ (hroot y.v.root (by simp)))).mp hp)
          · exact .inr ((below_congr (hkeep _ (hroot y.v.tail (by simp)))).mp hp)
        have hsame : ∃ c0 c', w.st.mem p = some c0 ∧ w'.st.mem p = some c' ∧ Same c0 c' := by
          rcases hp' with hp' | hp'
          · exact hkeep _ (hroot y.v.root (by simp)) p hp'
          · exact hkeep _ (hroot y.v.tail (by simp)) p hp'
        obtain ⟨c0, c', h6, h7, h8⟩ := hsame
        rw [hc] at h7; cases h7
        rw [hr.objs] at hy
        obtain ⟨g, hg, rfl⟩ := List.mem_map.mp hy
        have := hr.sound.tok_lt hgc hg hp' h6
        rw [htok, h8.2.2]
        omega
    · rw [if_neg hk1] at hw
      cases hw
      rw [hwi] at hi; cases hi
      rw [hkd] at hk1
      exact absurd rfl hk1

/-! ### Counts -/

/-- the pointers in a node -/
def pointers (m : Mem Dat T) (p : Nat) : List Nat :=
  match m p with
  | some ⟨_, _, _, .inner _ r ks⟩ => r.toList ++ ks
  | _ => []

/-- all pointers to nodes: from the static variables, from objects, and from nodes `B` -/
def allPointers (er et : Nat) (w : World T) (B : List Nat) : List Nat :=
  er :: et :: (w.objs.flatMap (fun o => [o.v.root, o.v.tail]) ++ B.flatMap (pointers w.st.mem))

/-- What is allocated is a finite set of nodes; each has as many references as its count says, and belongs to some object
or is static. -/
structure Exact (er et : Nat) (w : World T) (B : List Nat) : Prop where
  nodup : B.Nodup
  alloc : ∀ p, w.st.mem p ≠ none ↔ p ∈ B
  count : ∀ p ∈ B, ∀ c, w.st.mem p = some c → c.rc = (allPointers er et w B).count p ∧ 0 < c.rc
  used : ∀ p ∈ B, p = er ∨ p = et ∨ ∃ o ∈ w.objs, NodeOf w.st.mem o.v p
  /-- pointers lead to nodes -/
  valid : ∀ p ∈ allPointers er et w B, p ∈ B

theorem from_head {D V : Type} {Y : Sys D T V} {m : Mem D T} {a p : Nat} (h : From Y m a p) : p = a ∨ ∃ c o, m a = some c ∧ o ∈ Y.outs c.data ∧ From Y m o p := by
  induction h with
  | here => exact .inl rfl
  | next h1 hc ho ih =>
    right
    rcases ih with rfl | ⟨c0, o0, h2, h3, h4⟩
    · exact ⟨_, _, hc, ho, .here⟩
    · exact ⟨c0, o0, h2, h3, .next h4 hc ho⟩

theorem den_emptyRoot {u : Toks E.gc} {m : Mem Dat T} {p : Nat} (h : Den (sys c E u) m p (.node emptyRoot)) : ∃ cl, m p = some cl ∧ outsD cl.data = [] := by
  obtain ⟨⟨rc, tok, es, dat⟩, g', hc, hok, hd⟩ := h.cell
  refine ⟨_, hc, ?_⟩
  cases dat with
  | leaf => obtain ⟨_, _, xs, _, h2⟩ := hok; cases h2
  | inner cap tb ks =>
    obtain ⟨_, _, _, rs, Ns, h1, h2, h3, h4⟩ := hok
    cases h1
    cases tb with
    | none =>
      have : ks = [] := List.length_eq_zero_iff.mp h2
      rw [this]; rfl
    | some t => cases h3
  | table cap sz => rfl

theorem den_leaf {u : Toks E.gc} {m : Mem Dat T} {p : Nat} {xs : List T} (h : Den (sys c E u) m p (.node (.leaf xs))) : ∃ cl, m p = some cl ∧ outsD cl.data = [] := by
  obtain ⟨⟨rc, tok, es, dat⟩, g', hc, hok, hd⟩ := h.cell
  refine ⟨_, hc, ?_⟩
  cases dat with
  | leaf => rfl
  | inner cap tb ks =>
    obtain ⟨_, _, _, rs, Ns, h1, h2, h3, h4⟩ := hok
    cases h1
  | table cap sz => rfl

theorem Rel.exact (hgc : E.gc = false) (h : Rel c E Good er et w M) : ∃ B, Exact er et w B := by
  obtain ⟨G, h⟩ := h
  have hdr : Den (sys c E (toks E.gc w.next (acts G))) w.st.mem er (.node emptyRoot) := h.sound.inv.den statics_mem.1
  have hdt : Den (sys c E (toks E.gc w.next (acts G))) w.st.mem et (.node emptyTail) := h.sound.inv.den statics_mem.2
  obtain ⟨B, J, gg, hJ, hi⟩ := h.sound.inv
  have hJ : J = [] := hJ hgc
  subst hJ
  have hpt : ∀ p, outsAt (sys c E (toks E.gc w.next (acts G))) w.st.mem p = pointers w.st.mem p := by
    intro p
    unfold outsAt pointers
    cases hc : w.st.mem p with
    | none => rfl
    | some c =>
      obtain ⟨rc, tok, els, dat⟩ := c
      cases dat <;> rfl
  have hall : allRefs (sys c E (toks E.gc w.next (acts G))) w.st.mem B (sRefs T er et ++ G.flatMap Gh.refs) = allPointers er et w B := by
    unfold allRefs allPointers
    rw [List.map_append, ← roots_none, ← h.objs, List.flatMap_congr fun a _ => hpt a]
    rfl
  refine ⟨B, ?_, ?_, ?_, ?_, ?_⟩
  · simpa using hi.nodup
  · intro p
    rw [hi.alloc p]; simp
  · intro p hp c hc
    have := hi.rc hgc p hp c hc
    unfold total at this
    rw [hall] at this
    exact this
  · intro p hp
    obtain ⟨r, hr, hf⟩ := good_reached (ranked c E _) hgc hi p hp
    have stop : ∀ {q : Nat}, (∃ cl, w.st.mem q = some cl ∧ outsD cl.data = []) → From (sys c E (toks E.gc w.next (acts G))) w.st.mem q p → p = q := by
      rintro q ⟨cl, h1, h2⟩ hf
      rcases from_head hf with hf | ⟨c', o, hc', ho, _⟩
      · exact hf
      · rw [h1] at hc'; cases hc'
        have ho : o ∈ outsD cl.data := ho
        rw [h2] at ho; cases ho
    rcases List.mem_append.mp hr with hr | hr
    · simp only [sRefs, List.mem_cons, List.not_mem_nil, or_false] at hr
      rcases hr with rfl | rfl
      · exact .inl (stop (den_emptyRoot hdr) hf)
      · exact .inr (.inl (stop (den_leaf hdt) hf))
    · obtain ⟨g, hg, hr⟩ := List.mem_flatMap.mp hr
      refine .inr (.inr ⟨g.obj, by rw [h.objs]; exact List.mem_map_of_mem hg, ?_⟩)
      simp only [Gh.refs, VecHeap.refs, List.mem_cons, List.not_mem_nil, or_false] at hr
      rcases hr with rfl | rfl
      · exact .inl (below_from.mpr hf)
      · exact .inr (below_from.mpr hf)
  · intro p hp
    rw [← hall] at hp
    exact hi.mem_of_pos (List.count_pos_iff.mpr hp)

/-- when all objects are destroyed only the static nodes are left -/
theorem Rel.released (hgc : E.gc = false) (hne : er ≠ et) (h : Rel c E Good er et w M) (h0 : w.objs = []) :
    (∀ p, w.st.mem p ≠ none ↔ p = er ∨ p = et) ∧ ∀ p, p = er ∨ p = et → ∃ cl, w.st.mem p = some cl ∧ cl.rc = 1 := by
  obtain ⟨B, hB⟩ := h.exact hgc
  obtain ⟨G, hr⟩ := h
  have hdr : Den (sys c E (toks E.gc w.next (acts G))) w.st.mem er (.node emptyRoot) := hr.sound.inv.den statics_mem.1
  have hdt : Den (sys c E (toks E.gc w.next (acts G))) w.st.mem et (.node emptyTail) := hr.sound.inv.den statics_mem.2
  have her : er ∈ B := hB.valid er (by simp [allPointers])
  have het : et ∈ B := hB.valid et (by simp [allPointers])
  have hall : ∀ p ∈ B, p = er ∨ p = et := by
    intro p hp
    rcases hB.used p hp with rfl | rfl | ⟨o, ho, _⟩
    · exact .inl rfl
    · exact .inr rfl
    · rw [h0] at ho; cases ho
  have hnil : ∀ {q : Nat}, (∃ cl, w.st.mem q = some cl ∧ outsD cl.data = []) → pointers w.st.mem q = [] := by
    rintro q ⟨⟨rc, tok, es, dat⟩, h1, h2⟩
    unfold pointers
    rw [h1]
    cases dat with
    | leaf => rfl
    | table => rfl
    | inner cap tb ks => exact h2
  have hptr : B.flatMap (pointers w.st.mem) = [] := by
    rw [List.flatMap_eq_nil_iff]
    intro p hp
    rcases hall p hp with rfl | rfl
    · exact hnil (den_emptyRoot hdr)
    · exact hnil (den_leaf hdt)
  have hap : allPointers er et w B = [er, et] := by
    unfold allPointers
    rw [h0, hptr]; rfl
  refine ⟨fun p => ⟨fun hp => hall p ((hB.alloc p).mp hp), fun hp => (hB.alloc p).mpr (by rcases hp with rfl | rfl <;> assumption)⟩, ?_⟩
  intro p hp
  have hpB : p ∈ B := by rcases hp with rfl | rfl <;> assumption
  cases hc : w.st.mem p with
  | none => exact absurd hc ((hB.alloc p).mpr hpB)
  | some cl =>
    refine ⟨cl, rfl, ?_⟩
    rw [(hB.count p hpB cl hc).1, hap]
    rcases hp with rfl | rfl
    · rw [List.count_cons_self, List.count_singleton, if_neg (by simpa using hne.symm)]
    · simp [hne]

/-- the three ways to call an operation give the same list -/
theorem same_result (hA : Laws c E K S Good Tm) (h : Rel c E Good er et w M) {i j k : Nat} {l l' : List T} {o : K.Op} (hi : M[i]? = some ⟨.value, l⟩) (hj : M[j]? = some ⟨.transient, l⟩)
    (hk : M[k]? = some ⟨.value, l⟩) (hr : S.run o l = some l') (ho : ∀ b oi, w.objs[i]? = some oi ∨ w.objs[j]? = some oi ∨ w.objs[k]? = some oi → Tm.ok b none oi.v o) :
    ∃ w₁ w₂ w₃, call c K E er et none (.apply i o) w = .ok w₁ () ∧ call c K E er et none (.applyMut j o) w = .ok w₂ () ∧ call c K E er et none (.applyMove k o) w = .ok w₃ () ∧
      Shows c K Tm w₁ M.length ⟨.value, l'⟩ ∧ Shows c K Tm w₂ j ⟨.transient, l'⟩ ∧ Shows c K Tm w₃ (if E.gc then M.length else k) ⟨.value, l'⟩ := by
  have leg : ∀ {n : Nat} {kd : Spec.SKd}, M[n]? = some ⟨kd, l⟩ → Spec.Legal S M n o := by
    intro n kd hn s hs
    rw [hn] at hs; cases hs
    show S.run o l ≠ none
    rw [hr]; exact fun h => by cases h
  have go : ∀ {x : Cmd T K.Op}, Spec.Allowed S M x → Tm.On E.gc w none x → ∃ w', call c K E er et none x w = .ok w' () ∧ Rel c E Good er et w' (Spec.step S E.gc M x) := by
    intro x hx ho
    have := call_out hA h none x hx ho
    cases hc : call c K E er et none x w with
    | ub => rw [hc] at this; exact this.elim
    | thrown _ => rw [hc] at this; exact absurd rfl this.2
    | ok w' u => rw [hc] at this; exact ⟨w', rfl, this.1⟩
  obtain ⟨w₁, c1, r1⟩ := go (x := .apply i o) (leg hi) (fun oi h => ho _ oi (.inl h))
  obtain ⟨w₂, c2, r2⟩ := go (x := .applyMut j o) ⟨leg hj, by intro s hs; rw [hj] at hs; cases hs; exact fun h => by cases h⟩ (fun oi h => ho _ oi (.inr (.inl h)))
  obtain ⟨w₃, c3, r3⟩ := go (x := .applyMove k o) (leg hk) (fun oi h => ho _ oi (.inr (.inr h)))
  refine ⟨w₁, w₂, w₃, c1, c2, c3, (r1.shows hA).2 _ _ ?_, (r2.shows hA).2 _ _ ?_, (r3.shows hA).2 _ _ ?_⟩
  · simp only [Spec.step, Spec.on, hi, Spec.SKd.kd, or_true, if_true, hr, Option.map_some, Option.getD_some]
    simp
  · simp only [Spec.step, Spec.on, hj, Spec.SKd.kd, or_true, if_true, hr, Option.map_some, Option.getD_some]
    exact List.getElem?_set_self (getElem?_lt hj)
  · simp only [Spec.step, Spec.on, hk, Spec.SKd.kd, or_true, if_true, hr, Option.map_some, Option.getD_some]
    by_cases hgc : E.gc = true
    · simp [hgc]
    · simp only [hgc]
      exact List.getElem?_set_self (getElem?_lt hk)

/-- the same root and tail: the same elements -/
theorem identity_same (hA : Laws c E K S Good Tm) (h : Rel c E Good er et w M) {i j : Nat} {oi oj : Obj} (hi : w.objs[i]? = some oi) (hj : w.objs[j]? = some oj) (hr : oi.v.root = oj.v.root) (ht : oi.v.tail = oj.v.tail) :
    oi.v.size = oj.v.size ∧ contents c w.st.mem oi.v = contents c w.st.mem oj.v := by
  obtain ⟨G, h⟩ := h
  have hgo : ∀ {i : Nat} {o : Obj}, w.objs[i]? = some o → ∃ g ∈ G, g.obj = o := by
    intro i o hi
    rw [h.objs, List.getElem?_map] at hi
    cases hx : G[i]? with
    | none => rw [hx] at hi; cases hi
    | some g => rw [hx] at hi; cases hi; exact ⟨g, List.mem_of_getElem? hx, rfl⟩
  obtain ⟨g, hg, rfl⟩ := hgo hi
  obtain ⟨g', hg', rfl⟩ := hgo hj
  have e1 := h.sound.tree g hg
  have e2 := h.sound.tree g' hg'
  have d1 := h.sound.denRoot hg
  have d2 := h.sound.denRoot hg'
  have d3 := h.sound.denTail hg
  have d4 := h.sound.denTail hg'
  rw [hr] at d1
  rw [ht] at d3
  have k1 := Den.unique (ranked c E _) d1 d2
  have k2 := Den.unique (ranked c E _) d3 d4
  simp only [Val.node.injEq] at k1 k2
  have hl := hA.same e1.1 e2.1 k1 k2
  rw [Gh.contents hA h.sound hg, Gh.contents hA h.sound hg']
  exact ⟨by rw [e1.2.size, e2.2.size, hA.size e1.1, hA.size e2.1, hl], hl⟩

/-- what a call that throws leaves -/
theorem strong (hA : Laws c E K S Good Tm) (hne : er ≠ et) (h : Reached c K S Tm E er et w M) {f : Option (Kind × Nat)} {x : Cmd T K.Op} (ha : Spec.Allowed S M x) (ho : Tm.On E.gc w f x)
    (hw : call c K E er et f x w = .thrown w') :
    f ≠ none ∧ ∃ M', Reached c K S Tm E er et w' M' ∧ ShowsAll c K Tm w' M' ∧ (E.gc = false → ∃ B, Exact er et w' B) ∧ M' ∈ Spec.failed S E.gc M f x ∧
      ((∀ n, f ≠ some (.user, n)) → (∀ i, x ≠ .transientMove i) → M' = M) := by
  obtain ⟨M', h1, h2⟩ := h.thrown hA hne ha ho hw
  have hf := call_out hA (h.rel hA hne) f x ha ho
  rw [show call c K E er et f x w = _ from hw] at hf
  refine ⟨hf.2, M', h2, (h2.rel hA hne).shows hA, fun hg => (h2.rel hA hne).exact hg, h1, ?_⟩
  intro hu hx
  have hu : ¬ f.map Prod.fst = some .user := by
    cases f with
    | none => exact fun h => by cases h
    | some f =>
      obtain ⟨k, n⟩ := f
      intro hk
      simp only [Option.map_some, Option.some.injEq] at hk
      subst hk
      exact hu n rfl
  cases x with
  | transientMove i => exact absurd rfl (hx i)
  | applyMut i o =>
    have h1 : M' ∈ M :: (if f.map Prod.fst = some .user then _ else []) := h1
    rw [if_neg hu] at h1
    exact List.mem_singleton.mp h1
  | applyMove i o =>
    have h1 : M' ∈ M :: (if f.map Prod.fst = some .user then _ else []) := h1
    rw [if_neg hu] at h1
    exact List.mem_singleton.mp h1
  | new | ofRange | copy | move | assign | moveAssign | destroy | transient | persistent | persistentMove | apply => exact List.mem_singleton.mp h1

end
end VecHeap
