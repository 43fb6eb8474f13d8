import Verif.ChampHeap.World

/-!
# Maps and sets on memory (C22, C23, C24, C27, C37, C39)

Programs are lists of calls (`Cmd`, see `Api.lean`), each of which may throw at any point; the calls that are allowed are
described in `Spec.lean`.  What they should do is also described there, without nodes.
-/

namespace ChampHeap
open Mm Champ

section
variable {w : Nat} {T : Type} {m m' : Mem (Dat w) T}

theorem readAll_congr {α : Type} {f f' : Nat → Option α} : ∀ {ps : List Nat}, (∀ p ∈ ps, f p = f' p) → readAll f ps = readAll f' ps
  | [], _ => rfl
  | p :: ps, h => by
    rw [readAll, readAll, h p (by simp), readAll_congr fun q hq => h q (List.mem_cons_of_mem _ hq)]

/-- memory with the same nodes reads the same -/
theorem read_congr : ∀ (d r : Nat), (∀ p ∈ cellsN m d r, ∃ c c', m p = some c ∧ m' p = some c' ∧ Same c c') → readN m' d r = readN m d r
  | 0, r, h => by
    obtain ⟨⟨rc, tok, els, dat⟩, ⟨rc', tok', els', dat'⟩, h1, h2, h3, h4, h5⟩ := h r (cells_self 0 r)
    simp only at h3 h4 h5
    subst h3 h4 h5
    rw [readN, readN, h1, h2]
    cases dat' <;> rfl
  | d + 1, r, h => by
    obtain ⟨⟨rc, tok, els, dat⟩, ⟨rc', tok', els', dat'⟩, h1, h2, h3, h4, h5⟩ := h r (cells_self (d + 1) r)
    simp only at h3 h4 h5
    subst h3 h4 h5
    rw [cellsN, h1] at h
    rw [readN, readN, h1, h2]
    cases dat' with
    | coll n => rfl
    | vals => rfl
    | inner i =>
      simp only at h ⊢
      have hk : readAll (readN m' d) i.cs = readAll (readN m d) i.cs := by
        refine readAll_congr fun p hp => read_congr d p fun q hq => h q ?_
        exact List.mem_cons_of_mem _ (List.mem_append_right _ (List.mem_flatMap.mpr ⟨p, hp, hq⟩))
      have hv : readVals m' i.vals = readVals m i.vals := by
        cases hvo : i.vals with
        | none => rfl
        | some v =>
          obtain ⟨⟨rc1, tok1, els1, dat1⟩, ⟨rc1', tok1', els1', dat1'⟩, k1, k2, k3, k4, k5⟩ := h v (by rw [hvo]; simp)
          simp only at k3 k4 k5
          subst k3 k4 k5
          rw [readVals, readVals, k1, k2]
          cases dat1' <;> rfl
      rw [hk, hv]

end

section
variable {K T P : Type} {A : Api K T P} {E : Env (Dat A.cfg.W) T} {em : Nat} {w w' : World A.cfg} {M : List (Spec.SObj K T)}

/-- The world `w` is reached by an allowed program, which should leave the objects `M`. -/
def Reached (A : Api K T P) (E : Env (Dat A.cfg.W) T) (em : Nat) (w : World A.cfg) (M : List (Spec.SObj K T)) : Prop :=
  ∃ prog fl, Spec.AllAllowed A E.gc [] prog ∧ run A E em prog (start A em) = some (w, fl) ∧ M = Spec.run A E.gc [] ((prog.map Prod.snd).zip fl)

theorem Reached.rel (hA : A.Lawful) (hE : E.Fresh) (h : Reached A E em w M) : Rel E em w M := by
  obtain ⟨prog, fl, h1, h2, rfl⟩ := h
  obtain ⟨w', fl', k1, _, _, k4⟩ := run_out hA hE prog (start A em) [] (start_rel hA) h1
  rw [h2] at k1
  cases k1
  exact k4

/-- Object `i` has the type and contents `s`: that is what `find` finds for each key, and memory holds a tree with these
elements, without repetition, as many as `size` says. -/
def Shows (A : Api K T P) (w : World A.cfg) (i : Nat) (s : Spec.SObj K T) : Prop :=
  ∃ o N, w.objs[i]? = some o ∧ o.kd = s.kd.kd ∧ (∀ k, find A i k w = some (s.val k)) ∧
    readN w.st.mem A.cfg.maxDepth o.ch.root = some N ∧ (elems A.cfg A.cfg.maxDepth N).length = o.ch.size ∧
    (elems A.cfg A.cfg.maxDepth N).Pairwise (fun x y => A.cfg.eqv (A.cfg.key x) (A.cfg.key y) = false) ∧
    ∀ k, s.val k = (elems A.cfg A.cfg.maxDepth N).find? fun x => A.cfg.eqv (A.cfg.key x) k

/-- the objects are `M` -/
def ShowsAll (A : Api K T P) (w : World A.cfg) (M : List (Spec.SObj K T)) : Prop :=
  w.objs.length = M.length ∧ ∀ i s, M[i]? = some s → Shows A w i s

theorem Rel.shows (hA : A.Lawful) (h : Rel E em w M) : ShowsAll A w M := by
  obtain ⟨G, h⟩ := h
  refine ⟨by rw [h.objs, List.length_map, h.loc.length_eq], ?_⟩
  intro i s hs
  obtain ⟨g, hg, h1, h2, h3⟩ := f2_get' h.loc hs
  have hmem := List.mem_of_getElem? hg
  have hm := h.sound.map g hmem
  have ho : w.objs[i]? = some g.obj := by rw [h.objs, List.getElem?_map, hg]; rfl
  refine ⟨g.obj, g.N, ho, h1, ?_, den_read (h.sound.den hmem) (h.sound.shape hmem), ?_, ?_, ?_⟩
  · intro k
    obtain ⟨s', hs', _⟩ := get_obj (s := { w.st with fault := none }) hA (h.sound.den hmem) hm rfl k
    unfold find
    rw [ho]
    simp only
    rw [hs']
    simp only
    rw [h3]
  · exact hm.size.symm
  · exact hm.pairwise hA.cfg
  · intro k
    rw [← h3]; rfl

/-- **C22.**  Any program of constructions, copies, moves, assignments, destructions and operations, persistent, on rvalues and
through transients, with reference counting or under the collector: nothing undefined happens, only calls in which something
throws throw, and every object holds what it should. -/
theorem C22_programs (hA : A.Lawful) (hE : E.Fresh) (prog : List (Option (Kind × Nat) × Cmd K T P)) (h : Spec.AllAllowed A E.gc [] prog) :
    ∃ w fl, run A E em prog (start A em) = some (w, fl) ∧ fl.length = prog.length ∧ (∀ p ∈ (prog.map Prod.fst).zip fl, p.2 = true → p.1 ≠ none) ∧
      ShowsAll A w (Spec.run A E.gc [] ((prog.map Prod.snd).zip fl)) := by
  obtain ⟨w', fl', k1, k2, k3, k4⟩ := run_out hA hE prog (start A em) [] (start_rel hA) h
  exact ⟨w', fl', k1, k2, k3, k4.shows hA⟩

/-- **C22**, for one operation: on a transient it leaves in the transient what it gives as a new value. -/
theorem C22_same_result (hA : A.Lawful) (hE : E.Fresh) (h : Reached A E em w M) {i j : Nat} {v : K → Option T} (hi : M[i]? = some ⟨.value, v⟩) (hj : M[j]? = some ⟨.transient, v⟩)
    (o : Op K T P) :
    ∃ w₁ w₂, call A E em none (.apply i o) w = .ok w₁ () ∧ call A E em none (.applyMut j o) w = .ok w₂ () ∧
      ∀ k, find A M.length k w₁ = some (Champ.Spec.step A v o k) ∧ find A j k w₂ = some (Champ.Spec.step A v o k) := by
  have hr := h.rel hA hE
  have h1 := call_out hA hE hr none (.apply i o) (by rintro ⟨⟨n, hn⟩, _⟩; cases hn)
  have h2 := call_out hA hE hr none (.applyMut j o) ⟨rfl, by intro s hs; rw [hj] at hs; cases hs; exact fun h => by cases h⟩
  have hl : j < M.length := (List.getElem?_eq_some_iff.mp hj).1
  cases hx : call A E em none (.apply i o) w with
  | ub => rw [hx] at h1; exact h1.elim
  | thrown _ => rw [hx] at h1; exact absurd rfl h1.2
  | ok w₁ u =>
    cases hy : call A E em none (.applyMut j o) w with
    | ub => rw [hy] at h2; exact h2.elim
    | thrown _ => rw [hy] at h2; exact absurd rfl h2.2
    | ok w₂ u' =>
      rw [hx] at h1; rw [hy] at h2
      have h1 := (Rel.shows hA h1.1).2 M.length
      have h2 := (Rel.shows hA h2.1).2 j
      simp only [Spec.step, Spec.on, hi, hj, Spec.SKd.kd, or_true, if_true] at h1 h2
      refine ⟨w₁, w₂, rfl, rfl, fun k => ?_⟩
      obtain ⟨_, _, _, _, h3, _⟩ := h1 ⟨.value, Champ.Spec.step A v o⟩ (by simp)
      obtain ⟨_, _, _, _, h4, _⟩ := h2 _ (List.getElem?_set_self hl)
      exact ⟨h3 k, h4 k⟩

/-- what is not the object a call works on, and everything reachable from it, stays -/
theorem call_keeps (hA : A.Lawful) (hE : E.Fresh) (h : Reached A E em w M) {f : Option (Kind × Nat)} {x : Cmd K T P} (ha : Spec.Allowed A E.gc M f x)
    (hw : call A E em f x w = .ok w' () ∨ call A E em f x w = .thrown w') {j : Nat} {o : Obj} (hj : w.objs[j]? = some o) (hne : Spec.hurt E.gc x ≠ some j) :
    (∀ p ∈ cellsN w.st.mem A.cfg.maxDepth o.ch.root, ∃ c c', w.st.mem p = some c ∧ w'.st.mem p = some c' ∧ c'.data = c.data ∧ c'.els = c.els ∧ c'.tok = c.tok) ∧
      readN w'.st.mem A.cfg.maxDepth o.ch.root = readN w.st.mem A.cfg.maxDepth o.ch.root := by
  have hc := call_out hA hE (h.rel hA hE) f x ha
  have hk : Keeps A.cfg.maxDepth w.st.mem w'.st.mem (rootsBut (Spec.hurt E.gc x) w.objs) := by
    rcases hw with hw | hw <;> rw [hw] at hc
    · exact hc.2
    · exact hc.1.2
  have hr : o.ch.root ∈ rootsBut (Spec.hurt E.gc x) w.objs := by
    unfold rootsBut
    cases hh : Spec.hurt E.gc x with
    | none => exact List.mem_map_of_mem (List.mem_of_getElem? hj)
    | some i =>
      refine List.mem_map_of_mem (f := fun h : Obj => h.ch.root) (List.mem_eraseIdx_iff_getElem?.mpr ⟨j, ?_, hj⟩)
      rintro rfl
      exact hne hh
  have := hk _ hr
  refine ⟨fun p hp => ?_, read_congr _ _ this⟩
  obtain ⟨c, c', h1, h2, h3⟩ := this p hp
  exact ⟨c, c', h1, h2, h3⟩

/-- **C23.**  With reference counting: whatever is done to one object, in place or not, and even if it throws, the nodes of
every other object stay as they are, and so it reads the same. -/
theorem C23_others_unchanged (hA : A.Lawful) (hE : E.Fresh) (_hgc : E.gc = false) (h : Reached A E em w M) {f : Option (Kind × Nat)} {x : Cmd K T P} (ha : Spec.Allowed A E.gc M f x)
    (hw : call A E em f x w = .ok w' () ∨ call A E em f x w = .thrown w') {j : Nat} {o : Obj} (hj : w.objs[j]? = some o) (hne : Spec.hurt E.gc x ≠ some j) :
    (∀ p ∈ cellsN w.st.mem A.cfg.maxDepth o.ch.root, ∃ c c', w.st.mem p = some c ∧ w'.st.mem p = some c' ∧ c'.data = c.data ∧ c'.els = c.els ∧ c'.tok = c.tok) ∧
      readN w'.st.mem A.cfg.maxDepth o.ch.root = readN w.st.mem A.cfg.maxDepth o.ch.root :=
  call_keeps hA hE h ha hw hj hne

/-- **C27.**  The same under the collector. -/
theorem C27_others_unchanged (hA : A.Lawful) (hE : E.Fresh) (_hgc : E.gc = true) (h : Reached A E em w M) {f : Option (Kind × Nat)} {x : Cmd K T P} (ha : Spec.Allowed A E.gc M f x)
    (hw : call A E em f x w = .ok w' () ∨ call A E em f x w = .thrown w') {j : Nat} {o : Obj} (hj : w.objs[j]? = some o) (hne : Spec.hurt E.gc x ≠ some j) :
    (∀ p ∈ cellsN w.st.mem A.cfg.maxDepth o.ch.root, ∃ c c', w.st.mem p = some c ∧ w'.st.mem p = some c' ∧ c'.data = c.data ∧ c'.els = c.els ∧ c'.tok = c.tok) ∧
      readN w'.st.mem A.cfg.maxDepth o.ch.root = readN w.st.mem A.cfg.maxDepth o.ch.root :=
  call_keeps hA hE h ha hw hj hne

/-! ### Tokens -/

variable {G : List (Gh A)} {g : Gh A} {i : Nat}

/-- a node of an object that belongs to a transient in use belongs to that object -/
theorem Sound.tok_of {m : Mem (Dat A.cfg.W) T} {next : Nat} (h : Sound E em m next G) (hg : g ∈ G) {p : Nat} (hp : p ∈ cellsN m A.cfg.maxDepth g.obj.ch.root) {c : Cell (Dat A.cfg.W) T} (hc : m p = some c)
    (hl : (toks E.gc next (acts G)).live c.tok) : g.act = true ∧ c.tok = g.obj.tok := by
  obtain ⟨B, J, gg, hJ, hi⟩ := h.inv
  have hr : g.ref ∈ emRef A em :: G.map Gh.ref := List.mem_cons_of_mem _ (List.mem_map_of_mem hg)
  obtain ⟨c', h1, h2⟩ := good_chain hi (hi.mem_of_ref hr) (cells_from hp) c hc hl
  have h3 := hi.refTok _ hr c' h1 (by rw [h2]; exact hl)
  have h4 : c.tok = g.t := h2.symm.trans h3
  have h5 : g.t ≠ 0 := by
    intro h0
    rw [h4, h0] at hl
    exact (toks E.gc next (acts G)).live0 hl
  obtain ⟨h6, h7⟩ := h.tok g hg h5
  exact ⟨h6, h4.trans h7⟩

/-- tokens of nodes are older than new ones -/
theorem Sound.tok_lt {m : Mem (Dat A.cfg.W) T} {next : Nat} (hgc : E.gc = true) (h : Sound E em m next G) (hg : g ∈ G) {p : Nat} (hp : p ∈ cellsN m A.cfg.maxDepth g.obj.ch.root) {c : Cell (Dat A.cfg.W) T} (hc : m p = some c) :
    c.tok < next := by
  by_contra hn
  have hl : (toks E.gc next (acts G)).live c.tok := ⟨hgc, by have := h.pos; omega, .inr (by omega)⟩
  obtain ⟨h1, h2⟩ := h.tok_of hg hp hc hl
  have := (h.lt _ (acts_mem hg h1)).2
  omega

/-- **C27.**  A node of any object that an operation on transient `i` changes has the token of the transient. -/
theorem C27_only_owner (hA : A.Lawful) (hE : E.Fresh) (hgc : E.gc = true) (h : Reached A E em w M) {o : Op K T P} (ha : Spec.Allowed A E.gc M none (.applyMut i o))
    (hw : call A E em none (.applyMut i o) w = .ok w' ()) {oi : Obj} (hi : w.objs[i]? = some oi) {j : Nat} {oj : Obj} (hj : w.objs[j]? = some oj)
    {p : Nat} (hp : p ∈ cellsN w.st.mem A.cfg.maxDepth oj.ch.root) {c : Cell (Dat A.cfg.W) T} (hc : w.st.mem p = some c) (ht : c.tok ≠ oi.tok) :
    ∃ c', w'.st.mem p = some c' ∧ c'.data = c.data ∧ c'.els = c.els ∧ c'.tok = c.tok := by
  by_cases hij : i = j
  · subst hij
    rw [hi] at hj; cases hj
    obtain ⟨G, hr⟩ := h.rel hA hE
    have hgo : ∃ g, G[i]? = some g ∧ g.obj = oi := by
      rw [hr.objs, List.getElem?_map] at hi
      cases hx : G[i]? with
      | none => rw [hx] at hi; cases hi
      | some g => rw [hx] at hi; cases hi; exact ⟨g, rfl, rfl⟩
    obtain ⟨g, hg, rfl⟩ := hgo
    obtain ⟨s, hs, hl⟩ := f2_get hr.loc hg
    have hmem := List.mem_of_getElem? hg
    have hun : ¬ (toks E.gc w.next (acts G)).live c.tok := fun hlv => ht (hr.sound.tok_of hmem hp hc hlv).2
    by_cases hk : s.kd = .transient
    · have hact : g.act = true := by rw [hl.2.1, hgc, hk]; rfl
      obtain ⟨v, hv⟩ := inv_watch (Y := sys E (toks E.gc w.next (acts G))) hgc hr.sound.inv (by
          intro r hr'
          rcases List.mem_cons.mp hr' with rfl | hr'
          · rfl
          · obtain ⟨_, _, rfl⟩ := List.mem_map.mp hr'; rfl)
        (p := p) ⟨g.ref, List.mem_cons_of_mem _ (List.mem_map_of_mem hmem), cells_from hp⟩ (by intro c' hc'; rw [hc] at hc'; cases hc'; exact hun)
      have hlive : (toks E.gc w.next (acts G)).live g.obj.tok := by
        have := acts_mem hmem hact
        exact ⟨hgc, (hr.sound.lt _ this).1, .inl this⟩
      obtain ⟨Gr, hGr⟩ := (List.mem_iff_append.mp hmem)
      have hpm : (⟨p, v, 0, false⟩ :: emRef A em :: G.map Gh.ref : List (Ref (Val A.cfg.W T))).Perm (g.ref :: ⟨p, v, 0, false⟩ :: emRef A em :: (G.eraseIdx i).map Gh.ref) := by
        have h1 := ((at_perm hg).1.map Gh.ref)
        rw [List.map_cons] at h1
        exact ((h1.cons (emRef A em)).cons _).trans ((List.Perm.cons _ (.swap _ _ _)).trans (.swap _ _ _))
      have hinv := hv.permL hpm
      have hinv : Inv (sys E (toks E.gc w.next (acts G))) w.st.mem [] (⟨g.obj.ch.root, .node g.N, g.obj.tok, false⟩ :: ⟨p, v, 0, false⟩ :: emRef A em :: (G.eraseIdx i).map Gh.ref) := by
        by_cases h0 : g.t = 0
        · exact inv_retok hinv (by show ¬ (toks E.gc w.next _).live g.t; rw [h0]; exact (toks E.gc w.next _).live0) _ rfl
        · have := (hr.sound.tok g hmem h0).2
          rw [← this]; exact hinv
      have hout := applyMut_out (x := g.obj.ch) (s := { w.st with fault := none }) hA hE o (fun _ => hlive) (fun _ => rfl) hinv (List.mem_cons_of_mem _ List.mem_cons_self) (hr.sound.map g hmem)
        (.inl (by intro n hn; cases hn))
      have hkd : g.obj.kd = .transient := by rw [hl.1, hk]; rfl
      have hcall : call A E em none (.applyMut i o) w = ((lift (g.obj.ch.applyMut A E em g.obj.tok o)).bind fun x => setCh i x) { w with st := { w.st with fault := none } } := by
        unfold call
        rw [step]
        unfold withObj
        simp only [hi, hkd, or_true, if_true]
      rw [hcall] at hw
      unfold WM.bind lift at hw
      simp only at hw
      cases hx : g.obj.ch.applyMut A E em g.obj.tok o { w.st with fault := none } with
      | ub => rw [hx] at hw; cases hw
      | thrown s' => rw [hx] at hw; cases hw
      | ok s' x =>
        rw [hx] at hw hout
        simp only [setCh, Ans.ok.injEq] at hw
        obtain ⟨rfl, _⟩ := hw
        obtain ⟨_, _, _, _, hkept⟩ := hout
        obtain ⟨c', h1, h2⟩ := hkept.1 p ⟨⟨p, v, 0, false⟩, List.mem_cons_self, .here⟩ c hc
        exact ⟨c', h1, h2⟩
    · -- not a transient: nothing happens
      have hkd : g.obj.kd = .value := by
        rw [hl.1]
        cases hh : s.kd with
        | value => rfl
        | transient => exact absurd hh hk
        | shell => exact absurd hh (ha.2 s hs)
      have hcall : call A E em none (.applyMut i o) w = .ok { w with st := { w.st with fault := none } } () := by
        unfold call
        rw [step]
        unfold withObj
        simp only [hi, hkd, Option.some.injEq, reduceCtorEq, or_self, if_false]
      rw [hcall] at hw
      cases hw
      exact ⟨c, hc, rfl, rfl, rfl⟩
  · obtain ⟨c1, c', h1, h2, h3⟩ := (call_keeps hA hE h ha (.inl hw) hj (by
      show some i ≠ some j
      intro hh; cases hh; exact hij rfl)).1 p hp
    rw [hc] at h1; cases h1
    exact ⟨c', h2, h3⟩

/-- **C27.**  After `persistent()` on transient `i`, no node of any object has the token of the transient any more: it has made
none of them since. -/
theorem C27_persistent_gives_up (hA : A.Lawful) (hE : E.Fresh) (hgc : E.gc = true) (h : Reached A E em w M) {f : Option (Kind × Nat)} (ha : Spec.Allowed A E.gc M f (.persistent i : Cmd K T P))
    (hw : call A E em f (.persistent i : Cmd K T P) w = .ok w' ()) {oi : Obj} (hi : w'.objs[i]? = some oi) (hkd : oi.kd = .transient) {o : Obj} (ho : o ∈ w'.objs)
    {p : Nat} (hp : p ∈ cellsN w'.st.mem A.cfg.maxDepth o.ch.root) {c : Cell (Dat A.cfg.W) T} (hc : w'.st.mem p = some c) : c.tok ≠ oi.tok := by
  obtain ⟨G, hr⟩ := h.rel hA hE
  have hc0 := call_out hA hE ⟨G, hr⟩ f (.persistent i) ha
  have hw0 := hw
  rw [hw] at hc0
  have hkeep : Keeps A.cfg.maxDepth w.st.mem w'.st.mem (rootsBut none w.objs) := hc0.2
  unfold call at hw
  rw [step] at hw
  unfold withObj at hw
  simp only at hw
  cases hwi : w.objs[i]? with
  | none =>
    rw [hwi] at hw
    cases hw
    rw [hwi] at hi; cases hi
  | some o1 =>
    rw [hwi] at hw
    simp only [reduceCtorEq, false_or] at hw
    by_cases hk1 : (some Kd.transient = some o1.kd)
    · rw [if_pos hk1] at hw
      -- the new token is new
      have h1 := ownerFor_out (A := A) (E := E) (w := { w with st := { w.st with fault := f } }) .transient
      unfold WM.bind at hw
      simp only at hw
      cases hx : ownerFor A E .transient { w with st := { w.st with fault := f } } with
      | ub => rw [hx] at hw; cases hw
      | thrown s' => rw [hx] at hw; cases hw
      | ok w1 t =>
        rw [hx] at hw h1
        obtain ⟨h2, h3, h4, h5, _⟩ := h1
        have h5 : w.next ≤ t := (h5 rfl).1
        simp only at h3
        simp only [setOwner] at hw
        have hobjs : w'.objs = w.objs.modify i (fun h => { h with tok := t }) ++ [⟨.value, o1.ch, 0⟩] := by
          unfold lift Ch.copy Mm.M.bind at hw
          simp only at hw
          cases hy : inc E o1.ch.root w1.st with
          | ub => rw [hy] at hw; cases hw
          | thrown s' => rw [hy] at hw; cases hw
          | ok s' _ =>
            rw [hy] at hw
            simp only [Mm.M.ret, push, Ans.ok.injEq] at hw
            obtain ⟨rfl, _⟩ := hw
            simp only [h3]
        have htok : oi.tok = t := by
          have hlt : i < w.objs.length := (List.getElem?_eq_some_iff.mp hwi).1
          rw [hobjs, List.getElem?_append_left (by simpa using hlt), List.getElem?_modify_eq, hwi] at hi
          cases hi; rfl
        -- the roots are those there were
        have hroot : o.ch.root ∈ rootsBut none w.objs := by
          show o.ch.root ∈ w.objs.map fun h : Obj => h.ch.root
          rw [hobjs] at ho
          rcases List.mem_append.mp ho with ho | ho
          · obtain ⟨n, hn⟩ := List.mem_iff_getElem?.mp ho
            rw [List.getElem?_modify] at hn
            cases hm : w.objs[n]? with
            | none => rw [hm] at hn; cases hn
            | some y =>
              rw [hm] at hn
              have : o.ch = y.ch := by
                cases hn
                split <;> rfl
              rw [this]
              exact List.mem_map_of_mem (f := fun h : Obj => h.ch.root) (List.mem_of_getElem? hm)
          · rw [List.mem_singleton] at ho
            subst ho
            exact List.mem_map.mpr ⟨o1, List.mem_of_getElem? hwi, rfl⟩
        have hcells := cells_congr A.cfg.maxDepth o.ch.root (hkeep _ hroot)
        rw [hcells] at hp
        obtain ⟨c0, c', h6, h7, h8⟩ := hkeep _ hroot p hp
        rw [hc] at h7; cases h7
        obtain ⟨y, hy, hyr⟩ := List.mem_map.mp hroot
        have hy : y ∈ w.objs := hy
        rw [hr.objs] at hy
        obtain ⟨g, hg, rfl⟩ := List.mem_map.mp hy
        have := hr.sound.tok_lt hgc hg (by rw [hyr]; exact hp) h6
        rw [htok, h8.2.2]
        omega
    · rw [if_neg hk1] at hw
      cases hw
      rw [hwi] at hi; cases hi
      rw [hkd] at hk1
      exact absurd rfl hk1

/-! ### Counts -/

/-- the pointers in a cell -/
def pointers {W : Nat} (m : Mem (Dat W) T) (p : Nat) : List Nat :=
  match m p with
  | some ⟨_, _, _, .inner i⟩ => i.vals.toList ++ i.cs
  | _ => []

/-- What is allocated is a finite set of cells; each has as many references as its count says, from objects, from the static
variable of `champ::empty` and from other cells, and belongs to the tree of some object. -/
structure Exact (A : Api K T P) (em : Nat) (w : World A.cfg) (B : List Nat) : Prop where
  nodup : B.Nodup
  alloc : ∀ p, w.st.mem p ≠ none ↔ p ∈ B
  count : ∀ p ∈ B, ∀ c, w.st.mem p = some c → c.rc = (em :: w.objs.map (fun o => o.ch.root) ++ B.flatMap (pointers w.st.mem)).count p ∧ 0 < c.rc
  used : ∀ p ∈ B, p = em ∨ ∃ o ∈ w.objs, p ∈ cellsN w.st.mem A.cfg.maxDepth o.ch.root
  /-- pointers lead to cells -/
  valid : ∀ p ∈ em :: w.objs.map (fun o => o.ch.root) ++ B.flatMap (pointers w.st.mem), p ∈ B

theorem Rel.exact (hgc : E.gc = false) (h : Rel E em w M) : ∃ B, Exact A em w B := by
  obtain ⟨G, h⟩ := h
  obtain ⟨B, J, gg, hJ, hi⟩ := h.sound.inv
  have hJ : J = [] := hJ hgc
  subst hJ
  have hpt : ∀ p, outsAt (sys E (toks E.gc w.next (acts G))) w.st.mem p = pointers w.st.mem p := by
    intro p
    unfold outsAt pointers
    cases hc : w.st.mem p with
    | none => rfl
    | some c =>
      obtain ⟨rc, tok, els, dat⟩ := c
      cases dat <;> rfl
  have href : ∀ l : List (Gh A), (emRef A em :: l.map Gh.ref).map Ref.ptr = em :: (l.map Gh.obj).map (fun o => o.ch.root) := by
    intro l
    rw [List.map_cons, List.map_map, List.map_map]; rfl
  have hall : allRefs (sys E (toks E.gc w.next (acts G))) w.st.mem B (emRef A em :: G.map Gh.ref) = em :: w.objs.map (fun o => o.ch.root) ++ B.flatMap (pointers w.st.mem) := by
    unfold allRefs
    rw [href, h.objs, flatMap_congr' fun a _ => hpt a]
  refine ⟨B, ?_, ?_, ?_, ?_, ?_⟩
  · simpa using hi.nodup
  · intro p
    rw [hi.alloc p]; simp
  · intro p hp c hc
    have := hi.rc hgc p hp c hc
    unfold total at this
    rw [hall] at this
    exact this
  · intro p hp
    obtain ⟨r, hr, hf⟩ := good_reached (ranked E _) hgc hi p hp
    rcases List.mem_cons.mp hr with rfl | hr
    · left
      have hden : Den (sys E (toks E.gc w.next (acts G))) w.st.mem em (.node emptyNode) := h.sound.inv.den (r := emRef A em) List.mem_cons_self
      obtain ⟨cl, vo, cs, hc, hd, h1, h2, h3, h4, _⟩ := den_inner hden
      rcases from_head hf with hf | ⟨c', o, hc', ho, _⟩
      · exact hf
      · have hc' : w.st.mem em = some c' := hc'
        rw [hc] at hc'; cases hc'
        have ho : o ∈ outsD cl.data := ho
        rw [hd] at ho
        rw [popcount_zero, List.length_eq_zero_iff] at h3
        subst h3
        cases vo with
        | none => cases ho
        | some v => cases h4
    · obtain ⟨g, hg, rfl⟩ := List.mem_map.mp hr
      right
      refine ⟨g.obj, by rw [h.objs]; exact List.mem_map_of_mem hg, ?_⟩
      exact from_cells (h.sound.den hg) (h.sound.shape hg) hf
  · intro p hp
    rw [← hall] at hp
    exact hi.mem_of_pos (List.count_pos_iff.mpr hp)

/-- **C24.**  With reference counting, after any program: counts are exact, nothing is leaked.  (Nothing is used after it is
released, and nothing is released twice, as programs do nothing undefined: `C22_programs`.) -/
theorem C24_exact (hA : A.Lawful) (hE : E.Fresh) (hgc : E.gc = false) (h : Reached A E em w M) : ∃ B, Exact A em w B :=
  (h.rel hA hE).exact hgc

/-- **C24.**  When all objects are destroyed only the static empty node is left. -/
theorem C24_all_released (hA : A.Lawful) (hE : E.Fresh) (hgc : E.gc = false) (h : Reached A E em w M) (h0 : w.objs = []) :
    (∀ p, w.st.mem p ≠ none ↔ p = em) ∧ ∃ c, w.st.mem em = some c ∧ c.rc = 1 := by
  obtain ⟨B, hB⟩ := C24_exact hA hE hgc h
  have hem : em ∈ B := hB.valid em (by simp)
  have hall : ∀ p ∈ B, p = em := by
    intro p hp
    rcases hB.used p hp with rfl | ⟨o, ho, _⟩
    · rfl
    · rw [h0] at ho; cases ho
  refine ⟨fun p => ⟨fun hp => hall p ((hB.alloc p).mp hp), fun hp => (hB.alloc p).mpr (hp ▸ hem)⟩, ?_⟩
  have hBe : B = [em] := by
    have := hB.nodup
    match B, hem, hall, this with
    | [b], _, hall, _ => rw [hall b (by simp)]
    | b :: b' :: B, _, hall, hn =>
      have h1 := hall b (by simp)
      have h2 := hall b' (by simp)
      subst h1
      rw [h2] at hn
      simp at hn
  have hne := (hB.alloc em).mpr hem
  cases hc : w.st.mem em with
  | none => exact absurd hc hne
  | some c =>
    refine ⟨c, rfl, ?_⟩
    obtain ⟨h1, h2⟩ := hB.count em hem c hc
    obtain ⟨G, hr⟩ := h.rel hA hE
    have hden : Den (sys E (toks E.gc w.next (acts G))) w.st.mem em (.node emptyNode) := hr.sound.inv.den (r := emRef A em) List.mem_cons_self
    obtain ⟨cl, vo, cs, hc', hd, _, _, h3, h4, _⟩ := den_inner hden
    rw [hc] at hc'; cases hc'
    rw [popcount_zero, List.length_eq_zero_iff] at h3
    subst h3
    have hvo : vo = none := by
      cases vo with
      | none => rfl
      | some v => cases h4
    subst hvo
    have hp : pointers w.st.mem em = [] := by
      unfold pointers
      rw [hc]
      obtain ⟨rc, tok, els, dat⟩ := c
      simp only at hd
      subst hd; rfl
    rw [h1, hBe, h0]
    simp [hp]

/-! ### Exceptions, identity -/

/-- **C37.**  When something throws in a persistent operation, every object holds what it held, and nothing is leaked.  Missing:
a copy that throws when one of two elements with the same hash is replaced, where it is false, see `C37_fails`. -/
theorem C37_strong_partial (hA : A.Lawful) (hE : E.Fresh) (h : Reached A E em w M) {f : Option (Kind × Nat)} {o : Op K T P} (ha : Spec.Allowed A E.gc M f (.apply i o))
    (hw : call A E em f (.apply i o) w = .thrown w') :
    ShowsAll A w' M ∧ w'.objs = w.objs ∧ (E.gc = false → ∃ B, Exact A em w' B) ∧
      ∀ oj ∈ w.objs, readN w'.st.mem A.cfg.maxDepth oj.ch.root = readN w.st.mem A.cfg.maxDepth oj.ch.root := by
  have hc := call_out hA hE (h.rel hA hE) f (.apply i o) ha
  have hw0 := hw
  rw [hw] at hc
  refine ⟨Rel.shows hA hc.1.1, ?_, fun hgc => hc.1.1.exact hgc, ?_⟩
  · unfold call at hw
    rw [step] at hw
    unfold withObj at hw
    simp only at hw
    split at hw
    · split at hw
      · unfold WM.bind lift at hw
        simp only at hw
        rename_i h _ _
        cases hx : h.ch.apply A E em o { w.st with fault := f } with
        | ub => rw [hx] at hw; cases hw
        | thrown s' => rw [hx] at hw; cases hw; rfl
        | ok s' x => rw [hx] at hw; cases hw
      · cases hw
    · cases hw
  · intro oj hoj
    obtain ⟨j, hj⟩ := List.mem_iff_getElem?.mp hoj
    exact (call_keeps hA hE h ha (.inr hw0) hj (fun h => by cases h)).2

/-- **C39**, for maps and sets: `identity()` is the address of the root (map.hpp 480, set.hpp 259, table.hpp 488). -/
theorem C39_identity (hA : A.Lawful) (hE : E.Fresh) (h : Reached A E em w M) {i j : Nat} {oi oj : Obj} (hi : w.objs[i]? = some oi) (hj : w.objs[j]? = some oj) (he : oi.ch.root = oj.ch.root) :
    oi.ch.size = oj.ch.size ∧ ∀ k, find A i k w = find A j k w := by
  have hs := (h.rel hA hE).shows hA
  have hlen := hs.1
  have hli : i < M.length := hlen ▸ (List.getElem?_eq_some_iff.mp hi).1
  have hlj : j < M.length := hlen ▸ (List.getElem?_eq_some_iff.mp hj).1
  obtain ⟨o1, N1, h1, _, h2, h3, h4, _, h5⟩ := hs.2 i _ (List.getElem?_eq_getElem hli)
  obtain ⟨o2, N2, k1, _, k2, k3, k4, _, k5⟩ := hs.2 j _ (List.getElem?_eq_getElem hlj)
  rw [hi] at h1; cases h1
  rw [hj] at k1; cases k1
  rw [he, k3] at h3
  cases h3
  refine ⟨h4.symm.trans k4, fun k => ?_⟩
  rw [h2, k2, h5, k5]

/-! ### Helpers that make nodes -/

/-- it completes, or throws and leaves memory exactly as it was: no memory is left allocated, no element constructed -/
def CleanUp {D S β : Type} (x : Mm.M D S β) (s : St D S) : Prop :=
  match x s with
  | .ok _ _ => True
  | .thrown s' => s'.mem = s.mem
  | .ub => False

theorem cleanUp_of {D S β : Type} {x : Mm.M D S β} {s : St D S} {Q : St D S → β → Prop} (h : Out (x s) Q (fun s' => s'.mem = s.mem)) : CleanUp x s := by
  unfold CleanUp
  cases hx : x s with
  | ok s' b => trivial
  | thrown s' => rw [hx] at h; exact h
  | ub => rw [hx] at h; exact h

/-- a node of an object, for the helper lemmas -/
theorem reached_at (hA : A.Lawful) (hE : E.Fresh) (hgc : E.gc = false) (h : Reached A E em w M) {o : Obj} (ho : o ∈ w.objs) {p : Nat} (hp : p ∈ cellsN w.st.mem A.cfg.maxDepth o.ch.root) :
    ∃ u L v, Inv (sys E u) w.st.mem [] L ∧ At (sys E u) w.st.mem L p v := by
  obtain ⟨G, hr⟩ := h.rel hA hE
  rw [hr.objs] at ho
  obtain ⟨g, hg, rfl⟩ := List.mem_map.mp ho
  have hreach : Reach (sys E (toks E.gc w.next (acts G))) w.st.mem (emRef A em :: G.map Gh.ref) p :=
    ⟨g.ref, List.mem_cons_of_mem _ (List.mem_map_of_mem hg), cells_from hp⟩
  obtain ⟨B, J, gg, hJ, hi⟩ := hr.sound.inv
  exact ⟨_, _, gg p, ⟨B, J, gg, hJ, hi⟩, hreach, hi.den hreach, fun c _ => (toks E.gc w.next (acts G)).liveGc hgc c.tok⟩

variable {f : Option (Kind × Nat)}

/-- **C36**, inner nodes: `copy_inner_replace_value` (hamts/node.hpp 560-587), `copy_inner_replace_inline` (684-739), `copy_inner_remove_value` (797-841),
`copy_inner_insert_value` (891-941), on any inner node of any object, with anything throwing: they complete, or memory is exactly what it was. -/
theorem C36_copy_inner (hA : A.Lawful) (hE : E.Fresh) (hgc : E.gc = false) (h : Reached A E em w M) {o : Obj} (ho : o ∈ w.objs) {p : Nat} (hp : p ∈ cellsN w.st.mem A.cfg.maxDepth o.ch.root)
    {c : Cell (Dat A.cfg.W) T} {i : Inner A.cfg.W} (hc : w.st.mem p = some c) (hd : c.data = .inner i) (f : Option (Kind × Nat)) (v : T) :
    (∀ off < popcount i.dm, CleanUp (copyInnerReplaceValue E p off v) { w.st with fault := f }) ∧
    (∀ b < A.cfg.W, i.dm.getLsbD b = false → i.nm.getLsbD b = true → CleanUp (copyInnerReplaceInline E p (bitOf _ b) (cnt i.nm b) v) { w.st with fault := f }) ∧
    (∀ b < A.cfg.W, i.dm.getLsbD b = true → CleanUp (copyInnerRemoveValue E p (bitOf _ b) (cnt i.dm b)) { w.st with fault := f }) ∧
    (∀ b < A.cfg.W, i.dm.getLsbD b = false → CleanUp (copyInnerInsertValue E p (bitOf _ b) v) { w.st with fault := f }) := by
  obtain ⟨u, L, vv, hi, ha⟩ := reached_at hA hE hgc h ho hp
  obtain ⟨c', g', hc', hok, _⟩ := ha.den.cell
  rw [hc] at hc'; cases hc'
  have hok : okD c.data c.els _ vv := hok
  rw [hd] at hok
  obtain ⟨_, xs, Ns, rfl, _⟩ := hok
  have hi : Inv (sys E u) ({ w.st with fault := f } : St _ _).mem [] L := hi
  have ha : At (sys E u) ({ w.st with fault := f } : St _ _).mem L p _ := ha
  refine ⟨fun off ho => ?_, fun b hb h1 h2 => ?_, fun b hb h1 => ?_, fun b hb h1 => ?_⟩
  · exact cleanUp_of (copyInnerReplaceValue_out hE hi ha ho v)
  · exact cleanUp_of (copyInnerReplaceInline_out hE hi ha hb h1 h2 v)
  · exact cleanUp_of (copyInnerRemoveValue_out hE hi ha hb h1)
  · exact cleanUp_of (copyInnerInsertValue_out hE hi ha hb h1 v)

/-- **C36**, collision nodes: `copy_collision_insert` (hamts/node.hpp 390), `copy_collision_remove` (439), `copy_collision_replace` (490) and `make_collision` (338).  Missing:
a copy that throws in `copy_collision_replace`, where it is false, see `C36_fails`. -/
theorem C36_copy_collision_partial (hA : A.Lawful) (hE : E.Fresh) (hgc : E.gc = false) (h : Reached A E em w M) {o : Obj} (ho : o ∈ w.objs) {p : Nat} (hp : p ∈ cellsN w.st.mem A.cfg.maxDepth o.ch.root)
    {c : Cell (Dat A.cfg.W) T} {n : Nat} (hc : w.st.mem p = some c) (hd : c.data = .coll n) (f : Option (Kind × Nat)) (v v' : T) :
    CleanUp (copyCollisionInsert E p v) { w.st with fault := f } ∧
    (∀ pos < n, CleanUp (copyCollisionRemove E p pos) { w.st with fault := f }) ∧
    (∀ pos < n, (∀ k, f ≠ some (.copy, k)) → CleanUp (copyCollisionReplace E p pos v) { w.st with fault := f }) ∧
    CleanUp (makeCollision E v v') { w.st with fault := f } := by
  obtain ⟨u, L, vv, hi, ha⟩ := reached_at hA hE hgc h ho hp
  obtain ⟨c', g', hc', hok, _⟩ := ha.den.cell
  rw [hc] at hc'; cases hc'
  have hok : okD c.data c.els _ vv := hok
  rw [hd] at hok
  obtain ⟨_, xs, rfl, _, rfl⟩ := hok
  have hi : Inv (sys E u) ({ w.st with fault := f } : St _ _).mem [] L := hi
  have ha : At (sys E u) ({ w.st with fault := f } : St _ _).mem L p _ := ha
  refine ⟨?_, fun pos ho => ?_, fun pos ho hn => ?_, ?_⟩
  · exact cleanUp_of (copyCollisionInsert_out hE hi ha v)
  · exact cleanUp_of (copyCollisionRemove_out hE hi ha ho)
  · exact cleanUp_of (copyCollisionReplace_out (s := { w.st with fault := f }) hE hn hi ha ho v)
  · exact cleanUp_of (makeCollision_out hE hi v v')

/-- **C41.**  When the hash function throws in an operation on a transient, nothing has changed.  Missing: exceptions later in the
operation, where it is false, see `C41_fails`. -/
theorem C41_hash_partial {o : Op K T P} (hw : call A E em (some (.user, 0)) (.applyMut i o) w = .thrown w') :
    w'.objs = w.objs ∧ w'.st.mem = w.st.mem := by
  unfold call at hw
  rw [step] at hw
  unfold withObj at hw
  simp only at hw
  split at hw
  · split at hw
    · unfold WM.bind lift at hw
      cases o <;>
      · simp only [Ch.applyMut, Mm.M.bind, tick, if_true] at hw
        cases hw
        exact ⟨rfl, rfl⟩
    · cases hw
  · cases hw

end
end ChampHeap
