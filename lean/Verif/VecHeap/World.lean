import Verif.VecHeap.Sound

/-!
# Calls on vector objects (helper lemmas for C25, C27, C39, C42)
-/

namespace VecHeap
open Mm Rrb

section
variable {T β δ : Type}

def AOut (r : Ans T β) (Q : World T → β → Prop) (F : World T → Prop) : Prop :=
  match r with
  | .ok w b => Q w b
  | .thrown w => F w
  | .ub => False

variable {w : World T} {Q : World T → β → Prop} {F : World T → Prop}

theorem aout_bind {x : WM T β} {f : β → WM T δ} {Q' : World T → δ → Prop} (h : AOut (x w) Q F)
    (hf : ∀ w' b, Q w' b → AOut (f b w') Q' F) : AOut ((x.bind f) w) Q' F := by
  unfold WM.bind
  cases hx : x w with
  | ok s' b => rw [hx] at h; exact hf s' b h
  | thrown s' => rw [hx] at h; exact h
  | ub => rw [hx] at h; exact h

theorem aout_mono {r : Ans T β} {Q' : World T → β → Prop} {F' : World T → Prop} (h : AOut r Q F) (h1 : ∀ w b, Q w b → Q' w b)
    (h2 : ∀ w, F w → F' w) : AOut r Q' F' := by
  cases r with
  | ok s b => exact h1 s b h
  | thrown s => exact h2 s h
  | ub => exact h

theorem aout_lift {x : HM T β} {Q : St Dat T → β → Prop} {F : St Dat T → Prop} (h : Out (x w.st) Q F) :
    AOut (lift x w) (fun w' b => Q w'.st b ∧ w'.objs = w.objs ∧ w'.next = w.next) (fun w' => F w'.st ∧ w'.objs = w.objs ∧ w'.next = w.next) := by
  unfold lift
  cases hx : x w.st with
  | ok s' b => rw [hx] at h; exact ⟨h, rfl, rfl⟩
  | thrown s' => rw [hx] at h; exact ⟨h, rfl, rfl⟩
  | ub => rw [hx] at h; exact h

theorem bind_setOwner {i t : Nat} {f : Unit → WM T β} : ((setOwner i t).bind f) w = f () { w with objs := w.objs.modify i fun h => { h with tok := t } } := rfl

theorem bind_setVc {i : Nat} {x : Vc} {f : Unit → WM T β} : ((setVc i x).bind f) w = f () { w with objs := w.objs.modify i fun h => { h with v := x } } := rfl

/-- what is known about faults after a call that does not throw, and after one that does -/
theorem out_fault {D S β : Type} {x : Mm.M D S β} {st : St D S} {Q : St D S → β → Prop} {F : St D S → Prop} (hx : Calm x) (h : Out (x st) Q F) :
    Out (x st) (fun s' b => Q s' b ∧ Later st.fault s'.fault) (fun s' => F s' ∧ st.fault ≠ none) := by
  have := hx st
  cases hr : x st with
  | ok s' b =>
    rw [hr] at h this
    exact ⟨h, this⟩
  | thrown s' =>
    rw [hr] at h this
    exact ⟨h, this⟩
  | ub => rw [hr] at h; exact h

end

section
variable {T : Type} {c : Cfg} {K : Kit T} {S : Spec.Ops K.Op T} {E : Env Dat T} {Good : Tree T → List T → Prop} {Tm : Spec.Terms K.Op} {er et : Nat} {w : World T}

/-- same memory, objects and tokens -/
structure Quiet (w w' : World T) : Prop where
  mem : w'.st.mem = w.st.mem
  objs : w'.objs = w.objs
  next : w'.next = w.next
  fault : w.st.fault ≠ none

theorem tick_full {D S : Type} {k : Kind} {s : St D S} : Out (tick k s) (fun s' _ => s'.mem = s.mem ∧ (s.fault = none → s'.fault = none)) (fun s' => s'.mem = s.mem ∧ s.fault ≠ none ∧ s.fault.map Prod.fst = some k) := by
  unfold tick
  cases hf : s.fault with
  | none => exact ⟨rfl, fun _ => hf⟩
  | some x =>
    obtain ⟨k', n⟩ := x
    simp only
    split
    · rename_i hk
      cases n with
      | zero => exact ⟨rfl, (fun h => by cases h), by rw [hk]; rfl⟩
      | succ n => exact ⟨rfl, fun h => by cases h⟩
    · exact ⟨rfl, fun h => by cases h⟩

theorem ownerFor_out (kd : Kd) : AOut (ownerFor E kd w) (fun w' t => w'.st.mem = w.st.mem ∧ w'.objs = w.objs ∧ w.next ≤ w'.next ∧
      (kd = .transient → w.next ≤ t ∧ t < w'.next) ∧ Later w.st.fault w'.st.fault) (fun w' => Quiet w w' ∧ E.gc = true) := by
  cases kd with
  | value => exact ⟨rfl, rfl, Nat.le_refl _, (fun h => by cases h), .refl _⟩
  | transient =>
    show AOut (newTok E w) _ _
    unfold newTok
    refine aout_bind (Q := fun w' _ => w'.st.mem = w.st.mem ∧ w'.objs = w.objs ∧ w'.next = w.next ∧ Later w.st.fault w'.st.fault) ?_ ?_
    · refine aout_mono (aout_lift (Q := fun s' _ => s'.mem = w.st.mem ∧ Later w.st.fault s'.fault) (F := fun s' => (s'.mem = w.st.mem ∧ w.st.fault ≠ none) ∧ E.gc = true) ?_)
        (fun w' _ h => ⟨h.1.1, h.2.1, h.2.2, h.1.2⟩) (fun w' h => ⟨⟨h.1.1.1, h.2.1, h.2.2, h.1.1.2⟩, h.1.2⟩)
      split
      · rename_i hg
        exact out_mono (out_fault (calm_tick _) tick_full) (fun _ _ h => ⟨h.1.1, h.2⟩) (fun _ h => ⟨⟨h.1.1, h.1.2.1⟩, hg⟩)
      · exact ⟨rfl, .refl _⟩
    · rintro w1 _ ⟨h1, h2, h3, h4⟩
      refine ⟨h1, h2, ?_, ?_, h4⟩
      · show w.next ≤ w1.next + 1
        omega
      · intro _
        show w.next ≤ w1.next ∧ w1.next < w1.next + 1
        omega

/-- what an object stands for -/
def Local (gc : Bool) (g : Gh T) (s : Spec.SObj T) : Prop :=
  g.obj.kd = s.kd.kd ∧ g.act = (gc && decide (s.kd = .transient)) ∧ g.l = s.val

/-- the world is as specified -/
structure RelG (c : Cfg) (E : Env Dat T) (Good : Tree T → List T → Prop) (er et : Nat) (w : World T) (G : List (Gh T)) (M : List (Spec.SObj T)) : Prop where
  objs : w.objs = G.map Gh.obj
  loc : List.Forall₂ (Local E.gc) G M
  sound : Sound c E Good er et w.st.mem w.next G

def Rel (c : Cfg) (E : Env Dat T) (Good : Tree T → List T → Prop) (er et : Nat) (w : World T) (M : List (Spec.SObj T)) : Prop := ∃ G, RelG c E Good er et w G M

/-- the roots and tails of the objects, except one -/
def rootsBut (o : Option Nat) (l : List Obj) : List Nat :=
  (match o with
  | none => l
  | some i => l.eraseIdx i).flatMap fun h : Obj => [h.v.root, h.v.tail]

def Post (c : Cfg) (E : Env Dat T) (Good : Tree T → List T → Prop) (er et : Nat) (w : World T) (o : Option Nat) (M : List (Spec.SObj T)) (w' : World T) : Prop :=
  Rel c E Good er et w' M ∧ Keeps w.st.mem w'.st.mem (rootsBut o w.objs)

variable {M : List (Spec.SObj T)} {G : List (Gh T)} {m m' : Mem Dat T} {next next' i j : Nat} {g : Gh T} {hu : Option Nat} {s : Spec.SObj T}

theorem RelG.eq {w' : World T} (h : RelG c E Good er et w G M) (h1 : w'.st.mem = w.st.mem) (h2 : w'.objs = w.objs) (h3 : w'.next = w.next) : RelG c E Good er et w' G M :=
  ⟨by rw [h2]; exact h.objs, h.loc, by rw [h1, h3]; exact h.sound⟩

theorem flat_ptrs : (G.flatMap Gh.refs).map Ref.ptr = (G.map fun g => [g.obj.v.root, g.obj.v.tail]).flatten := by
  rw [List.map_flatMap, ← List.flatMap_def]; rfl

theorem roots_none : rootsBut none (G.map Gh.obj) = (G.flatMap Gh.refs).map Ref.ptr := by
  unfold rootsBut; simp only; rw [List.flatMap_map, List.map_flatMap]; rfl

theorem roots_some : rootsBut (some i) (G.map Gh.obj) = ((G.eraseIdx i).flatMap Gh.refs).map Ref.ptr := by
  unfold rootsBut; simp only; rw [List.eraseIdx_map, List.flatMap_map, List.map_flatMap]; rfl

theorem roots_mem {r : Nat} {l : List Obj} (h : r ∈ rootsBut hu l) : r ∈ rootsBut none l := by
  cases hu with
  | none => exact h
  | some i =>
    unfold rootsBut at h ⊢
    obtain ⟨o, ho, hr⟩ := List.mem_flatMap.mp h
    exact List.mem_flatMap.mpr ⟨o, List.mem_of_mem_eraseIdx ho, hr⟩

theorem RelG.keeps_sub {O : List Nat} {u : Toks E.gc} {L L' : List (Ref (Val T))} (h : RelG c E Good er et w G M) (hi : Inv (sys c E u) w.st.mem O L') (hL : ∀ r ∈ L, r ∈ L')
    (hm : ∀ r ∈ G.flatMap Gh.refs, r ∈ L) (hk : Kept (sys c E u) O L w.st.mem m') : Keeps w.st.mem m' (rootsBut hu w.objs) := by
  refine (kept_keeps' hi hL hk).mono ?_
  intro r hr
  have := roots_mem hr
  rw [h.objs, roots_none] at this
  obtain ⟨x, hx, rfl⟩ := List.mem_map.mp this
  exact List.mem_map_of_mem (hm x hx)

theorem RelG.keeps_all (h : RelG c E Good er et w G M) (hk : Kept (sys c E (toks E.gc w.next (acts G))) [] (sRefs T er et ++ G.flatMap Gh.refs) w.st.mem m') :
    Keeps w.st.mem m' (rootsBut hu w.objs) :=
  h.keeps_sub h.sound.inv (fun _ h => h) (fun _ hr => List.mem_append_right _ hr) hk

theorem RelG.keeps_refl (h : RelG c E Good er et w G M) : Keeps w.st.mem w.st.mem (rootsBut hu w.objs) := h.keeps_all .refl

theorem RelG.quiet {w' : World T} (h : RelG c E Good er et w G M) (hq : Quiet w w') : Post c E Good er et w hu M w' :=
  ⟨⟨G, h.eq hq.mem hq.objs hq.next⟩, by rw [hq.mem]; exact h.keeps_refl⟩

/-- calls on an object -/
theorem withObj_out {kd : Option Kd} {f : Obj → WM T Unit} {f' : Spec.SObj T → List (Spec.SObj T)} {Q : List (Spec.SObj T) → World T → Prop} {F : World T → Prop}
    (h : RelG c E Good er et w G M) (h0 : Q M w)
    (hf : ∀ g s, G[i]? = some g → M[i]? = some s → Local E.gc g s → (kd = none ∨ kd = some s.kd.kd) → w.objs[i]? = some g.obj → AOut (f g.obj w) (fun w' _ => Q (f' s) w') F) :
    AOut (withObj i kd f w) (fun w' _ => Q (Spec.on M i kd f') w') F := by
  unfold withObj Spec.on
  cases hg : G[i]? with
  | none =>
    have h1 : w.objs[i]? = none := by rw [h.objs, List.getElem?_map, hg]; rfl
    rw [h1, f2_none h.loc hg]
    exact h0
  | some g =>
    have h1 : w.objs[i]? = some g.obj := by rw [h.objs, List.getElem?_map, hg]; rfl
    obtain ⟨s, h2, h3⟩ := f2_get h.loc hg
    rw [h1, h2]
    simp only
    rw [h3.1]
    split
    · rename_i hk
      exact hf g s hg h2 h3 hk h1
    · exact h0

theorem Sound.ownerAt (h : Sound c E Good er et m next G) (hg : G[i]? = some g) {o : Obj} {b : Bool} (hch : o.v = g.obj.v) (hn : next ≤ next')
    (hb : b = true → E.gc = true ∧ next ≤ o.tok ∧ o.tok < next') : Sound c E Good er et m next' (G.set i ⟨o, g.N, g.l, 0, b⟩) := by
  obtain ⟨h1, h2⟩ := at_perm hg
  exact ((h.perm h1).owner hch hn hb).perm (h2 _).symm

theorem Sound.push (h : Sound c E Good er et m next (g :: G)) : Sound c E Good er et m next (G ++ [g]) := h.perm (List.perm_append_singleton g G).symm

theorem Sound.pop (h : Sound c E Good er et m next (G ++ [g])) : Sound c E Good er et m next (g :: G) := h.perm (List.perm_append_singleton g G)

/-- an empty container -/
theorem Sound.empty (hA : Laws c E K S Good Tm) {st : St Dat T} (h : Sound c E Good er et st.mem next G) :
    Out (Vc.empty c E er et st) (fun s' x => (∀ o : Obj, o.v = x → Sound c E Good er et s'.mem next (⟨o, Vec.empty c, [], 0, false⟩ :: G)) ∧
      Kept (sys c E (toks E.gc next (acts G))) [] (sRefs T er et ++ G.flatMap Gh.refs) st.mem s'.mem) (fun _ => False) := by
  refine out_mono (empty_out h.inv statics_mem 0) ?_ (fun _ h => h)
  rintro s' r ⟨_, h1, h2, h3⟩
  exact ⟨fun o ho => h.add ho h2 hA.empty h1, h3⟩

/-- a copy of an object that owns nothing -/
theorem Sound.copy {st : St Dat T} {y : Vc} (h : Sound c E Good er et st.mem next G) (hg : g ∈ G) (ht : g.t = 0) (hy : y = g.obj.v) :
    Out (y.copy E st) (fun s' x => x = y ∧ (∀ o : Obj, o.v = x → Sound c E Good er et s'.mem next (⟨o, g.N, g.l, 0, false⟩ :: G)) ∧
      Inv (sys c E (toks E.gc next (acts G))) s'.mem [] (refs x g.N 0 ++ (sRefs T er et ++ G.flatMap Gh.refs)) ∧
      Kept (sys c E (toks E.gc next (acts G))) [] (sRefs T er et ++ G.flatMap Gh.refs) st.mem s'.mem) (fun _ => False) := by
  subst hy
  unfold Vc.copy
  refine out_bind (share_out (v := g.obj.v) (t := g.N) h.inv ?_ 0) ?_
  · intro r hr
    refine h.mem hg ?_
    unfold Gh.refs; rw [ht]; exact hr
  · rintro s' _ ⟨h1, h2⟩
    exact ⟨rfl, fun o ho => h.add ho h1 (h.tree g hg).1 (by exact (h.tree g hg).2), h1, h2⟩

theorem local_act (h : Local E.gc g s) (ha : g.act = true) : E.gc = true ∧ g.obj.kd = .transient := by
  obtain ⟨h1, h2, h3⟩ := h
  rw [ha] at h2
  have := (Bool.and_eq_true_iff.mp h2.symm)
  refine ⟨this.1, ?_⟩
  rw [h1, of_decide_eq_true this.2]
  rfl

/-! ### Calls -/

/-- `from_range` and the like -/
theorem pushes_out (hA : Laws c E K S Good Tm) {u : Toks E.gc} {O : List Nat} {L : List (Ref (Val T))} {e : Nat} (he : E.gc = true → u.live e) : ∀ (xs : List T) (v : Vc) (t : Tree T) (l : List T) (st : St Dat T),
    Good t l → Is v t → Tm.okPush st.fault → Inv (sys c E u) st.mem O (refs v t e ++ L) →
    Out (pushes K E e v xs st) (fun s' v' => ∃ t', Good t' (l ++ xs) ∧ Made c E u O L st.mem t' e s' v') (fun s' => Gone c E u O L st.mem s'.mem)
  | [], v, t, l, st, ht, hv, _, hi => ⟨t, by rw [List.append_nil]; exact ht, hv, hi, .refl⟩
  | x :: xs, v, t, l, st, ht, hv, ho, hi => by
    unfold pushes
    refine out_bind (out_guard (out_mono (out_fault (hA.calmPush e v x) (hA.pushMut he ht hv ho hi)) (fun _ _ h => h) (fun _ h => h.1)) ?_) ?_
    · rintro s1 ⟨h1, h2⟩
      refine out_mono (hA.drop ht hv h1) ?_ (fun _ h => h)
      rintro s2 _ ⟨h3, h4⟩
      exact ⟨h3, (h2.mono (fun r hr => List.mem_append_right _ hr) (fun _ h => h)).trans h4⟩
    · rintro s1 v1 ⟨⟨t1, h1, h2, h3, h4⟩, h5⟩
      refine out_mono (pushes_out hA he xs v1 t1 (l ++ [x]) s1 h1 h2 (hA.later h5 ho) h3) ?_ ?_
      · rintro s2 v2 ⟨t2, k1, k2, k3, k4⟩
        refine ⟨t2, by simpa using k1, k2, k3, h4.trans k4⟩
      · rintro s2 ⟨k1, k2⟩
        exact ⟨k1, h4.trans k2⟩

theorem calm_pushes (hA : Laws c E K S Good Tm) {e : Nat} : ∀ (xs : List T) (v : Vc), Calm (pushes K E e v xs)
  | [], _ => calm_ret _
  | x :: xs, v => calm_bind (calm_guard (hA.calmPush e v x)) fun v => calm_pushes hA xs v

theorem new_out (hA : Laws c E K S Good Tm) (h : RelG c E Good er et w G M) (kd : Kd) :
    AOut (step c K E er et (.new kd) w) (fun w' _ => Post c E Good er et w none (Spec.step S E.gc M (.new kd)) w') (fun w' => Post c E Good er et w none M w' ∧ w.st.fault ≠ none) := by
  rw [step]
  refine aout_bind (aout_mono (ownerFor_out kd) (fun _ _ h => h) (fun w' ⟨hq, _⟩ => ⟨h.quiet hq, hq.fault⟩)) ?_
  rintro w1 t ⟨h1, h2, h3, h4, h5⟩
  have hs : Sound c E Good er et w1.st.mem w.next G := by rw [h1]; exact h.sound
  refine aout_bind (aout_mono (aout_lift (Sound.empty hA hs)) (fun _ _ h => h) (fun w' hq => hq.1.elim)) ?_
  rintro w2 x ⟨⟨h6, h7⟩, h8, h9⟩
  have h10 := (h6 ⟨kd, x, t⟩ rfl).owner (o := ⟨kd, x, t⟩) (b := E.gc && decide (Spec.SKd.of kd = .transient)) (next' := w2.next) rfl (by rw [h9]; exact h3) (by
    intro hb
    have := Bool.and_eq_true_iff.mp hb
    refine ⟨this.1, ?_⟩
    rw [h9]
    apply h4
    cases kd with
    | value => simp [Spec.SKd.of] at this
    | transient => rfl)
  refine ⟨⟨G ++ [⟨⟨kd, x, t⟩, Vec.empty c, [], 0, E.gc && decide (Spec.SKd.of kd = .transient)⟩], ?_, ?_, h10.push⟩, ?_⟩
  · show w2.objs ++ _ = _
    rw [h8, h2, h.objs, List.map_append]; rfl
  · refine f2_push h.loc ⟨?_, rfl, rfl⟩
    cases kd <;> rfl
  · rw [h1] at h7
    exact h.keeps_all h7

theorem ofRange_out (hA : Laws c E K S Good Tm) (h : RelG c E Good er et w G M) (xs : List T) (hok : Tm.okPush w.st.fault) :
    AOut (step c K E er et (.ofRange xs) w) (fun w' _ => Post c E Good er et w none (Spec.step S E.gc M (.ofRange xs)) w') (fun w' => Post c E Good er et w none M w' ∧ w.st.fault ≠ none) := by
  rw [step]
  refine aout_bind (aout_mono (ownerFor_out .transient) (fun _ _ h => h) (fun w' ⟨hq, _⟩ => ⟨h.quiet hq, hq.fault⟩)) ?_
  rintro w1 t ⟨h1, h2, h3, h4, h5⟩
  obtain ⟨h4a, h4b⟩ := h4 rfl
  have hi : Inv (sys c E (toks E.gc w.next (acts G))) w1.st.mem [] (sRefs T er et ++ G.flatMap Gh.refs) := by rw [h1]; exact h.sound.inv
  refine aout_bind (aout_mono (aout_lift (out_fault (calm_empty c E er et) (empty_out hi statics_mem t))) (fun _ _ h => h) (fun w' hq => hq.1.1.elim)) ?_
  rintro w2 x ⟨⟨⟨_, h6, h7, h7'⟩, hf2⟩, h8, h9⟩
  have hpos := h.sound.pos
  have hnx : w.next ≤ w2.next := by rw [h9]; exact h3
  refine aout_bind (aout_mono (aout_lift (out_fault (calm_pushes hA xs x) (pushes_out hA (u := toks E.gc w.next (acts G)) (fun hg => ⟨hg, by omega, .inr h4a⟩) xs x (Vec.empty c) [] w2.st hA.empty h6 (hA.later hf2 (hA.later h5 hok)) h7)))
    (fun _ _ h => h) ?_) ?_
  · rintro w3 ⟨⟨⟨k1, k2⟩, k3⟩, k4, k5⟩
    refine ⟨⟨⟨G, by rw [k4, h8, h2]; exact h.objs, h.loc, ?_⟩, ?_⟩, fun hn => k3 (hf2.none (h5.none hn))⟩
    · rw [k5]
      exact ({ h.sound with inv := k1 } : Sound c E Good er et w3.st.mem w.next G).later hnx
    · rw [h1] at h7'
      exact h.keeps_all (h7'.trans k2)
  rintro w3 y ⟨⟨⟨N', k1, k2, k3, k4⟩, -⟩, k5, k6⟩
  -- the token is given up
  have hnx : w.next ≤ w3.next := by rw [k6]; exact hnx
  have k7 : Inv (sys c E (toks E.gc w3.next (acts G))) w3.st.mem [] (refs y N' 0 ++ (sRefs T er et ++ G.flatMap Gh.refs)) := by
    refine inv_retoks (inv_shrink k3 (u' := toks E.gc w3.next (acts G)) (fun t' ⟨a, b, d⟩ => ⟨a, b, d.imp_right (Nat.le_trans hnx)⟩)) ?_ 0
    rintro ⟨a, b, d⟩
    rcases d with d | d
    · have := h.sound.lt t d
      omega
    · rw [k6, h9] at d
      omega
  have k8 := (h.sound.later hnx).add (o := ⟨.value, y, 0⟩) rfl k7 k1 k2
  refine ⟨⟨G ++ [⟨⟨.value, y, 0⟩, N', [] ++ xs, 0, false⟩], ?_, ?_, k8.push⟩, ?_⟩
  · show w3.objs ++ _ = _
    rw [k5, h8, h2, h.objs, List.map_append]; rfl
  · exact f2_push h.loc ⟨rfl, by simp, rfl⟩
  · rw [h1] at h7'
    exact h.keeps_all (h7'.trans k4)

theorem refs_same (hg : G[i]? = some g) {g' : Gh T} (hr : g'.obj.v = g.obj.v) : ((G.set i g').flatMap Gh.refs).map Ref.ptr = (G.flatMap Gh.refs).map Ref.ptr := by
  rw [flat_ptrs, flat_ptrs, List.map_set, set_same]
  rw [List.getElem?_map, hg, hr]; rfl

theorem copy_out (h : RelG c E Good er et w G M) (hw : Spec.Whole M i) :
    AOut (step c K E er et (.copy i) w) (fun w' _ => Post c E Good er et w none (Spec.step S E.gc M (.copy i)) w') (fun w' => Post c E Good er et w none M w' ∧ w.st.fault ≠ none) := by
  rw [step, Spec.step]
  refine withObj_out (Q := fun M' w' => Post c E Good er et w none M' w') h ⟨⟨G, h⟩, h.keeps_refl⟩ ?_
  intro g s hg hs hl _ hgo
  refine aout_bind (aout_mono (ownerFor_out g.obj.kd) (fun _ _ h => h) (fun w' ⟨hq, _⟩ => ⟨h.quiet hq, hq.fault⟩)) ?_
  rintro w1 t ⟨h1, h2, h3, h4, h5⟩
  refine aout_bind (aout_mono (ownerFor_out g.obj.kd) (fun _ _ h => h) (fun w' ⟨hq, _⟩ =>
    ⟨⟨⟨G, by rw [hq.objs, h2]; exact h.objs, h.loc, by rw [hq.mem, hq.next, h1]; exact h.sound.later h3⟩, by rw [hq.mem, h1]; exact h.keeps_refl⟩, fun hn => hq.fault (h5.none hn)⟩)) ?_
  rintro w2 t' ⟨k1, k2, k3, k4, k5⟩
  rw [bind_setOwner]
  have hs1 : Sound c E Good er et w2.st.mem w.next (G.set i ⟨{ g.obj with tok := t' }, g.N, g.l, 0, false⟩) := by
    rw [k1, h1]; exact h.sound.ownerAt hg rfl (Nat.le_refl _) (fun h => by cases h)
  have hmem := List.mem_of_getElem? (set_get (y := (⟨{ g.obj with tok := t' }, g.N, g.l, 0, false⟩ : Gh T)) hg)
  refine aout_bind (aout_mono (aout_lift (w := { w2 with objs := w2.objs.modify i fun h => { h with tok := t' } }) (hs1.copy hmem rfl rfl)) (fun _ _ h => h) (fun w' hq => hq.1.elim)) ?_
  rintro w3 x ⟨⟨rfl, h6, h7, h8⟩, h9, h10⟩
  simp only at h9 h10
  have h11 := (h6 ⟨g.obj.kd, g.obj.v, t⟩ rfl).owner (o := ⟨g.obj.kd, g.obj.v, t⟩) (b := g.act) (next' := w1.next) rfl h3 (fun ha => ⟨(local_act hl ha).1, h4 (local_act hl ha).2⟩)
  have h12 := h11.push
  have h13 := h12.ownerAt (i := i) (g := ⟨{ g.obj with tok := t' }, g.N, g.l, 0, false⟩) (o := { g.obj with tok := t' }) (b := g.act) (next' := w3.next) (by
    rw [List.getElem?_append_left (by rw [List.length_set]; exact getElem?_lt hg)]
    exact set_get hg) rfl (by rw [h10]; exact k3) (fun ha => ⟨(local_act hl ha).1, by rw [h10]; exact k4 (local_act hl ha).2⟩)
  rw [List.set_append_left _ _ (by rw [List.length_set]; exact getElem?_lt hg), List.set_set] at h13
  refine ⟨⟨_, ?_, ?_, h13⟩, ?_⟩
  · show w3.objs ++ _ = _
    rw [h9, k2, h2, modify_set hgo, h.objs, List.map_append, List.map_set]; rfl
  · have := f2_set h.loc i (g := ⟨{ g.obj with tok := t' }, g.N, g.l, 0, g.act⟩) (s := s) hl
    rw [set_same hs] at this
    exact f2_push this hl
  · -- the nodes
    have := kept_keeps hs1.inv h8
    rw [k1, h1] at this
    refine this.mono ?_
    intro r hr
    rw [h.objs, roots_none] at hr
    rw [List.map_append]
    refine List.mem_append_right _ ?_
    rw [refs_same hg (g' := ⟨{ g.obj with tok := t' }, g.N, g.l, 0, false⟩) rfl]; exact hr

/-! #### Moves -/

theorem Sound.moveOut {y : Gh T} (h : Sound c E Good er et m next (y :: G)) (hg : G[i]? = some g) : Sound c E Good er et m next (G.set i y ++ [g]) :=
  h.perm ((move_perm hg y).1.trans ((move_perm hg y).2 g).symm)

theorem Sound.moveOwn {y : Gh T} (h : Sound c E Good er et m next (y :: G)) (hg : G[i]? = some g) {o : Obj} {b : Bool} (hch : o.v = g.obj.v) (hn : next ≤ next')
    (hb : b = true → E.gc = true ∧ next ≤ o.tok ∧ o.tok < next') : Sound c E Good er et m next' (G.set i y ++ [⟨o, g.N, g.l, 0, b⟩]) :=
  ((h.perm (move_perm hg y).1).owner hch hn hb).perm ((move_perm hg y).2 _).symm

theorem local_moved (hA : Laws c E K S Good Tm) (hl : Local E.gc g s) (x : Vc) : Local E.gc (⟨{ g.obj with v := x }, Vec.empty c, [], 0, false⟩ : Gh T) ⟨s.kd.moved E.gc, []⟩ := by
  obtain ⟨h1, h2, h3⟩ := hl
  refine ⟨?_, ?_, rfl⟩
  · rw [show ({ g.obj with v := x } : Obj).kd = g.obj.kd from rfl, h1]
    cases s.kd with
    | value => rfl
    | transient => simp only [Spec.SKd.moved]; split <;> rfl
    | shell => simp only [Spec.SKd.moved]; split <;> rfl
  · cases s.kd with
    | value => simp [Spec.SKd.moved]
    | transient => simp only [Spec.SKd.moved]; cases E.gc <;> rfl
    | shell => simp only [Spec.SKd.moved]; cases E.gc <;> rfl

theorem moveTo_out (hA : Laws c E K S Good Tm) (h : RelG c E Good er et w G M) :
    AOut (step c K E er et (.move i) w) (fun w' _ => Post c E Good er et w none (Spec.step S E.gc M (.move i)) w') (fun _ => False) := by
  rw [step, Spec.step]
  refine withObj_out (Q := fun M' w' => Post c E Good er et w none M' w') h ⟨⟨G, h⟩, h.keeps_refl⟩ ?_
  intro g s hg hs hl _ hgo
  refine aout_bind (aout_mono (aout_lift (Sound.empty hA h.sound)) (fun _ _ h => h) (fun w' hq => hq.1.elim)) ?_
  rintro w1 x ⟨⟨h1, h2⟩, h3, h4⟩
  rw [bind_setVc]
  refine ⟨⟨_, ?_, ?_, (by show Sound c E Good er et w1.st.mem w1.next _; rw [h4]; exact (h1 { g.obj with v := x } rfl).moveOut hg)⟩, h.keeps_all h2⟩
  · show w1.objs.modify i _ ++ _ = _
    rw [h3, modify_set hgo, h.objs, List.map_append, List.map_set]; rfl
  · exact f2_push (f2_set h.loc i (local_moved hA hl x)) hl

theorem transientMove_out (hA : Laws c E K S Good Tm) (h : RelG c E Good er et w G M) :
    AOut (step c K E er et (.transientMove i) w) (fun w' _ => Post c E Good er et w none (Spec.step S E.gc M (.transientMove i)) w')
      (fun w' => Post c E Good er et w none (Spec.on M i (some .value) fun _ => M.set i ⟨.value, []⟩) w' ∧ w.st.fault ≠ none) := by
  rw [step, Spec.step]
  refine withObj_out (Q := fun M' w' => Post c E Good er et w none M' w') h ⟨⟨G, h⟩, h.keeps_refl⟩ ?_
  intro g s hg hs hl hk hgo
  have hk : s.kd = .value := by
    cases hkd : s.kd <;> rw [hkd] at hk <;> simp [Spec.SKd.kd] at hk ⊢
  refine aout_bind (aout_mono (aout_lift (out_fault (calm_empty c E er et) (Sound.empty hA h.sound))) (fun _ _ h => h) (fun w' hq => hq.1.1.elim)) ?_
  rintro w1 x ⟨⟨⟨h1, h2⟩, hf1⟩, h3, h4⟩
  rw [bind_setVc]
  have hy := h1 { g.obj with v := x } rfl
  have hly : Local E.gc (⟨{ g.obj with v := x }, Vec.empty c, [], 0, false⟩ : Gh T) ⟨.value, []⟩ := by
    have := local_moved hA hl x
    rw [hk] at this
    exact this
  refine aout_bind (aout_mono (ownerFor_out .transient) (fun _ _ h => h) ?_) ?_
  · rintro w2 ⟨hq, hgc⟩
    refine ⟨⟨⟨G.set i ⟨{ g.obj with v := x }, Vec.empty c, [], 0, false⟩, ?_, ?_, ?_⟩, ?_⟩, fun hn => hq.fault (hf1.none hn)⟩
    · rw [hq.objs]
      show w1.objs.modify i _ = _
      rw [h3, modify_set hgo, h.objs, List.map_set]
    · unfold Spec.on
      rw [hs]
      simp only
      rw [if_pos (.inr (by rw [hk]; rfl))]
      exact f2_set h.loc i hly
    · rw [hq.mem, hq.next]
      show Sound c E Good er et w1.st.mem w1.next _
      rw [h4]
      have hp := hy.perm (move_perm hg _).1
      refine (Sound.remove hp ?_).perm ((at_perm hg).2 _).symm
      exact inv_forget hgc hp.first
    · rw [hq.mem]
      exact h.keeps_all h2
  · rintro w2 t ⟨k1, k2, k3, k4, k5⟩
    have h5 := hy.moveOwn hg (o := ⟨.transient, g.obj.v, t⟩) (b := E.gc) (next' := w2.next) rfl (by rw [h4] at k3; exact k3) (fun hb => ⟨hb, by rw [h4] at k4; exact k4 rfl⟩)
    refine ⟨⟨_, ?_, ?_, (by show Sound c E Good er et w2.st.mem w2.next _; rw [k1]; exact h5)⟩, by rw [show w2.st.mem = w1.st.mem from k1]; exact h.keeps_all h2⟩
    · show w2.objs ++ _ = _
      rw [k2]
      show w1.objs.modify i _ ++ _ = _
      rw [h3, modify_set hgo, h.objs, List.map_append, List.map_set]; rfl
    · exact f2_push (f2_set h.loc i hly) ⟨rfl, by simp, hl.2.2⟩

theorem persistentMove_out (hA : Laws c E K S Good Tm) (h : RelG c E Good er et w G M) :
    AOut (step c K E er et (.persistentMove i) w) (fun w' _ => Post c E Good er et w none (Spec.step S E.gc M (.persistentMove i)) w') (fun _ => False) := by
  rw [step, Spec.step]
  refine withObj_out (Q := fun M' w' => Post c E Good er et w none M' w') h ⟨⟨G, h⟩, h.keeps_refl⟩ ?_
  intro g s hg hs hl _ hgo
  refine aout_bind (aout_mono (aout_lift (Sound.empty hA h.sound)) (fun _ _ h => h) (fun w' hq => hq.1.elim)) ?_
  rintro w1 x ⟨⟨h1, h2⟩, h3, h4⟩
  rw [bind_setVc]
  have h5 := (h1 { g.obj with v := x } rfl).moveOwn hg (o := ⟨.value, g.obj.v, 0⟩) (b := false) (next' := w.next) rfl (Nat.le_refl _) (fun hb => by cases hb)
  refine ⟨⟨_, ?_, ?_, (by show Sound c E Good er et w1.st.mem w1.next _; rw [h4]; exact h5)⟩, h.keeps_all h2⟩
  · show w1.objs.modify i _ ++ _ = _
    rw [h3, modify_set hgo, h.objs, List.map_append, List.map_set]; rfl
  · exact f2_push (f2_set h.loc i (local_moved hA hl x)) ⟨rfl, by simp, hl.2.2⟩

theorem moveAssign_out (h : RelG c E Good er et w G M) (hw : Spec.Whole M j) :
    AOut (step c K E er et (.moveAssign i j) w) (fun w' _ => Post c E Good er et w none (Spec.step S E.gc M (.moveAssign i j)) w') (fun _ => False) := by
  rw [step, Spec.step]
  refine withObj_out (Q := fun M' w' => Post c E Good er et w none M' w') h ⟨⟨G, h⟩, h.keeps_refl⟩ ?_
  intro g s hg hs hl _ hgo
  rw [hl.1]
  refine withObj_out (Q := fun M' w' => Post c E Good er et w none M' w') h ⟨⟨G, h⟩, h.keeps_refl⟩ ?_
  intro g' s' hg' hs' hl' hk hgo'
  rw [bind_setOwner, bind_setVc]
  have hk : s.kd.kd = s'.kd.kd := by simpa using hk
  have hlj : ∀ o : Obj, o.kd = g.obj.kd → Local E.gc (⟨o, g.N, g.l, 0, false⟩ : Gh T) ⟨s'.kd.moved E.gc, s.val⟩ := by
    intro o ho
    refine ⟨?_, ?_, hl.2.2⟩
    · show o.kd = _
      rw [ho, hl.1, hk]
      cases s'.kd with
      | value => rfl
      | transient => simp only [Spec.SKd.moved]; split <;> rfl
      | shell => simp only [Spec.SKd.moved]; split <;> rfl
    · cases s'.kd with
      | value => simp [Spec.SKd.moved]
      | transient => simp only [Spec.SKd.moved]; cases E.gc <;> rfl
      | shell => simp only [Spec.SKd.moved]; cases E.gc <;> rfl
  have hobj : ({ kd := g.obj.kd, v := g'.obj.v, tok := g'.obj.tok } : Obj) = g'.obj := by
    rw [hl.1, hk, ← hl'.1]
  by_cases hij : i = j
  · subst hij
    rw [hg] at hg'; cases hg'
    rw [hs] at hs'; cases hs'
    have h5 := h.sound.ownerAt hg (o := g.obj) (b := false) (next' := w.next) rfl (Nat.le_refl _) (fun hb => by cases hb)
    refine ⟨⟨_, ?_, ?_, h5⟩, h.keeps_refl⟩
    · show ((w.objs.modify i _).modify i _).modify i _ = _
      rw [modify_set hgo, modify_set (set_get hgo), List.set_set, modify_set (set_get hgo), List.set_set, h.objs, List.map_set]
    · rw [List.set_set]
      exact f2_set h.loc i (hlj g.obj rfl)
  · have hp := h.sound.perm (swap_perm hij hg hg')
    have hjl : ((G.set i g').set j g)[j]? = some g := by
      rw [List.getElem?_set_self]
      rw [List.length_set]; exact getElem?_lt hg'
    have h5 := hp.ownerAt hjl (o := { g'.obj with v := g.obj.v }) (b := false) (next' := w.next) rfl (Nat.le_refl _) (fun hb => by cases hb)
    rw [List.set_set] at h5
    refine ⟨⟨_, ?_, ?_, h5⟩, h.keeps_refl⟩
    · show ((w.objs.modify i _).modify i _).modify j _ = _
      rw [modify_set hgo, modify_set (set_get hgo), List.set_set, modify_set (h := g'.obj) (by rw [List.getElem?_set_ne hij]; exact hgo'), h.objs, List.map_set, List.map_set]
      congr 2
    · refine f2_set (f2_set h.loc i hl') j (hlj _ ?_)
      show g'.obj.kd = _
      rw [hl.1, hk, hl'.1]

theorem value_of (h : some Kd.value = none ∨ some Kd.value = some s.kd.kd) : s.kd = .value := by
  cases hkd : s.kd <;> rw [hkd] at h <;> simp [Spec.SKd.kd] at h ⊢

theorem transient_of (h : some Kd.transient = none ∨ some Kd.transient = some s.kd.kd) (hs : M[i]? = some s) (hw : Spec.Whole M i) : s.kd = .transient := by
  have := hw s hs
  cases hkd : s.kd <;> rw [hkd] at h this <;> simp [Spec.SKd.kd] at h this ⊢

/-- what happens to the others -/
theorem kept_rest {O : List Nat} {u : Toks E.gc} {L R : List (Ref (Val T))} (hi : Inv (sys c E u) m O (L ++ (sRefs T er et ++ R)))
    (hk : Kept (sys c E u) O (sRefs T er et ++ R) m m') : Keeps m m' (R.map Ref.ptr) :=
  (kept_keeps' hi (fun r hr => List.mem_append_right _ hr) hk).mono fun r hr => by
    rw [List.map_append]; exact List.mem_append_right _ hr

theorem destroy_out (hA : Laws c E K S Good Tm) (h : RelG c E Good er et w G M) :
    AOut (step c K E er et (.destroy i) w) (fun w' _ => Post c E Good er et w (some i) (Spec.step S E.gc M (.destroy i)) w') (fun _ => False) := by
  rw [step]
  have he : Spec.step S E.gc M (.destroy i) = Spec.on M i none fun _ => M.eraseIdx i := by
    rw [Spec.step]
    unfold Spec.on
    cases hs : M[i]? with
    | none => exact List.eraseIdx_of_length_le (List.getElem?_eq_none_iff.mp hs)
    | some s => simp
  rw [he]
  refine withObj_out (Q := fun M' w' => Post c E Good er et w (some i) M' w') h ⟨⟨G, h⟩, h.keeps_refl⟩ ?_
  intro g s hg hs hl _ hgo
  have hp := h.sound.perm (at_perm hg).1
  have hgt := h.sound.tree g (List.mem_of_getElem? hg)
  refine aout_bind (aout_mono (aout_lift (hA.drop hgt.1 hgt.2 hp.first)) (fun _ _ h => h) (fun w' hq => hq.1.elim)) ?_
  rintro w1 _ ⟨⟨h1, h2⟩, h3, h4⟩
  refine ⟨⟨G.eraseIdx i, ?_, f2_erase h.loc i, ?_⟩, ?_⟩
  · show w1.objs.eraseIdx i = _
    rw [h3, h.objs, List.eraseIdx_map]
  · show Sound c E Good er et w1.st.mem w1.next _
    rw [h4]
    exact Sound.remove hp h1
  · rw [h.objs, roots_some]
    exact kept_rest hp.first h2

theorem sound_t0 (h : Sound c E Good er et m next G) (hg : g ∈ G) (hl : Local E.gc g s) (hk : s.kd ≠ .transient ∨ E.gc = false) : g.t = 0 := by
  by_contra hn
  have := (h.tok g hg hn).1
  rw [hl.2.1, Bool.and_eq_true_iff] at this
  rcases hk with hk | hk
  · exact hk (of_decide_eq_true this.2)
  · rw [hk] at this; cases this.1

theorem transient_out (h : RelG c E Good er et w G M) :
    AOut (step c K E er et (.transient i) w) (fun w' _ => Post c E Good er et w none (Spec.step S E.gc M (.transient i)) w') (fun w' => Post c E Good er et w none M w' ∧ w.st.fault ≠ none) := by
  rw [step, Spec.step]
  refine withObj_out (Q := fun M' w' => Post c E Good er et w none M' w') h ⟨⟨G, h⟩, h.keeps_refl⟩ ?_
  intro g s hg hs hl hk hgo
  have hk := value_of hk
  have hmem := List.mem_of_getElem? hg
  have ht := sound_t0 h.sound hmem hl (.inl (by rw [hk]; exact fun h => by cases h))
  refine aout_bind (aout_mono (ownerFor_out .transient) (fun _ _ h => h) (fun w' ⟨hq, _⟩ => ⟨h.quiet hq, hq.fault⟩)) ?_
  rintro w1 t ⟨h1, h2, h3, h4, h5⟩
  have hs1 : Sound c E Good er et w1.st.mem w.next G := by rw [h1]; exact h.sound
  refine aout_bind (aout_mono (aout_lift (hs1.copy hmem ht rfl)) (fun _ _ h => h) (fun w' hq => hq.1.elim)) ?_
  rintro w2 x ⟨⟨rfl, h6, h7, h8⟩, h9, h10⟩
  have h11 := (h6 ⟨.transient, g.obj.v, t⟩ rfl).owner (o := ⟨.transient, g.obj.v, t⟩) (b := E.gc) (next' := w2.next) rfl (by rw [h10]; exact h3) (fun ha => ⟨ha, by rw [h10]; exact h4 rfl⟩)
  refine ⟨⟨_, ?_, ?_, h11.push⟩, ?_⟩
  · show w2.objs ++ _ = _
    rw [h9, h2, h.objs, List.map_append]; rfl
  · exact f2_push h.loc ⟨rfl, by simp, hl.2.2⟩
  · rw [h1] at h8
    exact h.keeps_all h8

theorem persistent_out (h : RelG c E Good er et w G M) (hw : Spec.Whole M i) :
    AOut (step c K E er et (.persistent i) w) (fun w' _ => Post c E Good er et w none (Spec.step S E.gc M (.persistent i)) w') (fun w' => Post c E Good er et w none M w' ∧ w.st.fault ≠ none) := by
  rw [step, Spec.step]
  refine withObj_out (Q := fun M' w' => Post c E Good er et w none M' w') h ⟨⟨G, h⟩, h.keeps_refl⟩ ?_
  intro g s hg hs hl hk hgo
  have hk := transient_of hk hs hw
  refine aout_bind (aout_mono (ownerFor_out .transient) (fun _ _ h => h) (fun w' ⟨hq, _⟩ => ⟨h.quiet hq, hq.fault⟩)) ?_
  rintro w1 t ⟨h1, h2, h3, h4, h5⟩
  rw [bind_setOwner]
  have hs1 : Sound c E Good er et w1.st.mem w.next (G.set i ⟨{ g.obj with tok := t }, g.N, g.l, 0, false⟩) := by
    rw [h1]; exact h.sound.ownerAt hg rfl (Nat.le_refl _) (fun h => by cases h)
  have hmem := List.mem_of_getElem? (set_get (y := (⟨{ g.obj with tok := t }, g.N, g.l, 0, false⟩ : Gh T)) hg)
  refine aout_bind (aout_mono (aout_lift (w := { w1 with objs := w1.objs.modify i fun h => { h with tok := t } }) (hs1.copy hmem rfl rfl)) (fun _ _ h => h) (fun w' hq => hq.1.elim)) ?_
  rintro w3 x ⟨⟨rfl, h6, h7, h8⟩, h9, h10⟩
  simp only at h9 h10
  have h13 := (h6 ⟨.value, g.obj.v, 0⟩ rfl).push.ownerAt (i := i) (g := ⟨{ g.obj with tok := t }, g.N, g.l, 0, false⟩) (o := { g.obj with tok := t }) (b := E.gc) (next' := w3.next) (by
    rw [List.getElem?_append_left (by rw [List.length_set]; exact getElem?_lt hg)]
    exact set_get hg) rfl (by rw [h10]; exact h3) (fun ha => ⟨ha, by rw [h10]; exact h4 rfl⟩)
  rw [List.set_append_left _ _ (by rw [List.length_set]; exact getElem?_lt hg), List.set_set] at h13
  refine ⟨⟨_, ?_, ?_, h13⟩, ?_⟩
  · show w3.objs ++ _ = _
    rw [h9, h2, modify_set hgo, h.objs, List.map_append, List.map_set]; rfl
  · have := f2_set h.loc i (g := ⟨{ g.obj with tok := t }, g.N, g.l, 0, E.gc⟩) (s := s) ⟨hl.1, by rw [hk]; simp, hl.2.2⟩
    rw [set_same hs] at this
    exact f2_push this ⟨rfl, by simp, hl.2.2⟩
  · have := kept_keeps hs1.inv h8
    rw [h1] at this
    refine this.mono ?_
    intro r hr
    rw [h.objs, roots_none] at hr
    rw [List.map_append]
    refine List.mem_append_right _ ?_
    rw [refs_same hg (g' := ⟨{ g.obj with tok := t }, g.N, g.l, 0, false⟩) rfl]; exact hr

/-- the contents of one object given to another -/
theorem Sound.give (hA : Laws c E K S Good Tm) {R : List (Gh T)} {st : St Dat T} {gi gj : Gh T} (h : Sound c E Good er et st.mem next (gi :: R)) (hj : gj ∈ gi :: R) (ht : gj.t = 0) {x y : Vc} (hx : x = gj.obj.v) (hy : y = gi.obj.v) :
    Out (x.copy E st) (fun s1 z => z = x ∧ Out (K.drop E y s1) (fun s' _ => (∀ o : Obj, o.v = x → o.tok = gi.obj.tok → Sound c E Good er et s'.mem next (⟨o, gj.N, gj.l, 0, gi.act⟩ :: R)) ∧
      Keeps st.mem s'.mem ((R.flatMap Gh.refs).map Ref.ptr)) (fun _ => False)) (fun _ => False) := by
  refine out_mono (h.copy hj ht hx) ?_ (fun _ h => h)
  rintro s1 z ⟨rfl, h1, h2, h3⟩
  refine ⟨rfl, ?_⟩
  subst hy
  have hp : Inv (sys c E (toks E.gc next (acts (gi :: R)))) s1.mem [] (refs gi.obj.v gi.N gi.t ++ (refs z gj.N 0 ++ (sRefs T er et ++ R.flatMap Gh.refs))) := by
    refine h2.permL ?_
    exact ((last_perm (g := gi)).symm.append_left _).trans (List.perm_append_comm_assoc _ _ _)
  have hgi := h.tree gi List.mem_cons_self
  refine out_mono (hA.drop hgi.1 hgi.2 hp) ?_ (fun _ h => h)
  rintro s2 _ ⟨h4, h5⟩
  have hgj := h.tree gj hj
  refine ⟨?_, ?_⟩
  · intro o ho htok
    refine h.put ho htok h4 (fun h => absurd rfl h) hgj.1 (by rw [hx]; exact hgj.2)
  · have k1 := (kept_keeps h.inv h3).mono (l := (R.flatMap Gh.refs).map Ref.ptr) (fun r hr => by
      rw [List.map_append, List.flatMap_cons, List.map_append]
      exact List.mem_append_right _ (List.mem_append_right _ hr))
    have k2 := (kept_keeps' (L := refs z gj.N 0 ++ (sRefs T er et ++ R.flatMap Gh.refs)) hp (fun r hr => List.mem_append_right _ hr) h5).mono
      (l := (R.flatMap Gh.refs).map Ref.ptr) (fun r hr => by
      rw [List.map_append, List.map_append]
      exact List.mem_append_right _ (List.mem_append_right _ hr))
    exact k1.trans k2

theorem assign_out (hA : Laws c E K S Good Tm) (h : RelG c E Good er et w G M) (hw : Spec.Whole M j) :
    AOut (step c K E er et (.assign i j) w) (fun w' _ => Post c E Good er et w (some i) (Spec.step S E.gc M (.assign i j)) w') (fun w' => Post c E Good er et w (some i) M w' ∧ w.st.fault ≠ none) := by
  rw [step, Spec.step]
  refine withObj_out (Q := fun M' w' => Post c E Good er et w (some i) M' w') h ⟨⟨G, h⟩, h.keeps_refl⟩ ?_
  intro g s hg hs hl _ hgo
  rw [hl.1]
  refine withObj_out (Q := fun M' w' => Post c E Good er et w (some i) M' w') h ⟨⟨G, h⟩, h.keeps_refl⟩ ?_
  intro g' s' hg' hs' hl' hk hgo'
  have hk : s.kd.kd = s'.kd.kd := by simpa using hk
  have hkk : g.obj.kd = g'.obj.kd := by rw [hl.1, hk, hl'.1]
  refine aout_bind (aout_mono (ownerFor_out s.kd.kd) (fun _ _ h => h) (fun w' ⟨hq, _⟩ => ⟨h.quiet hq, hq.fault⟩)) ?_
  rintro w1 t' ⟨h1, h2, h3, h4, h5⟩
  rw [bind_setOwner]
  have hgo1 : w1.objs[j]? = some g'.obj := by rw [h2]; exact hgo'
  have hact : ∀ b : Bool, b = g'.act → b = true → E.gc = true ∧ w.next ≤ t' ∧ t' < w1.next := by
    rintro b rfl hb
    have := local_act hl' hb
    exact ⟨this.1, h4 (by rw [hk, ← hl'.1]; exact this.2)⟩
  -- `j` has another owner
  have hj1 := h.sound.ownerAt hg' (o := { g'.obj with tok := t' }) (b := g'.act) rfl h3 (fun hb => hact _ rfl hb)
  have hlj1 : List.Forall₂ (Local E.gc) (G.set j ⟨{ g'.obj with tok := t' }, g'.N, g'.l, 0, g'.act⟩) M := by
    have := f2_set h.loc j (g := ⟨{ g'.obj with tok := t' }, g'.N, g'.l, 0, g'.act⟩) (s := s') hl'
    rwa [set_same hs'] at this
  refine aout_bind (aout_mono (ownerFor_out s.kd.kd) (fun _ _ h => h) ?_) ?_
  · rintro w2 ⟨hq, _⟩
    refine ⟨⟨⟨_, ?_, hlj1, ?_⟩, ?_⟩, fun hn => hq.fault (h5.none hn)⟩
    · rw [hq.objs]
      show w1.objs.modify j _ = _
      rw [modify_set hgo1, h2, h.objs, List.map_set]
    · rw [hq.mem, hq.next]
      show Sound c E Good er et w1.st.mem w1.next _
      rw [h1]; exact hj1
    · rw [hq.mem]
      show Keeps _ w1.st.mem _
      rw [h1]; exact h.keeps_refl
  rintro w2 t ⟨k1, k2, k3, k4, k5⟩
  simp only at k1 k2 k3 k4
  rw [bind_setOwner]
  have hact2 : g'.act = true → E.gc = true ∧ w1.next ≤ t ∧ t < w2.next := by
    intro hb
    have := local_act hl' hb
    exact ⟨this.1, k4 (by rw [hk, ← hl'.1]; exact this.2)⟩
  have hsa : Sound c E Good er et w2.st.mem w.next (G.set j ⟨{ g'.obj with tok := t' }, g'.N, g'.l, 0, false⟩) := by
    rw [k1, h1]; exact h.sound.ownerAt hg' rfl (Nat.le_refl _) (fun h => by cases h)
  -- what is at `i` then
  obtain ⟨gi, hgi, hgi1⟩ : ∃ gi, (G.set j (⟨{ g'.obj with tok := t' }, g'.N, g'.l, 0, false⟩ : Gh T))[i]? = some gi ∧ gi.obj.v = g.obj.v := by
    by_cases hij : i = j
    · subst hij
      rw [hg] at hg'; cases hg'
      exact ⟨_, set_get hg, rfl⟩
    · exact ⟨g, by rw [List.getElem?_set_ne (Ne.symm hij)]; exact hg, rfl⟩
  obtain ⟨hp1, hp2⟩ := at_perm hgi
  have hgjm : (⟨{ g'.obj with tok := t' }, g'.N, g'.l, 0, false⟩ : Gh T) ∈ gi :: (G.set j (⟨{ g'.obj with tok := t' }, g'.N, g'.l, 0, false⟩ : Gh T)).eraseIdx i :=
    hp1.mem_iff.mp (List.mem_of_getElem? (set_get hg'))
  have hgive := (hsa.perm hp1).give hA hgjm rfl (x := g'.obj.v) (y := g.obj.v) rfl hgi1.symm
  refine aout_bind (aout_mono (aout_lift (w := { w2 with objs := w2.objs.modify i fun h => { h with tok := t } }) hgive) (fun _ _ h => h) (fun w' hq => hq.1.elim)) ?_
  rintro w3 x ⟨⟨rfl, h6⟩, h7, h8⟩
  simp only at h7 h8
  rw [bind_setVc]
  refine aout_mono (aout_lift (w := { w3 with objs := w3.objs.modify i fun h => { h with v := g'.obj.v } }) h6) ?_ (fun w' hq => hq.1.elim)
  rintro w4 _ ⟨⟨h9, h10⟩, h11, h12⟩
  simp only at h11 h12
  have hb := (h9 { gi.obj with v := g'.obj.v } rfl rfl).perm (hp2 _).symm
  have hn2 : w1.next ≤ w4.next := by rw [h12, h8]; exact k3
  have hact4 : g'.act = true → E.gc = true ∧ w1.next ≤ t ∧ t < w4.next := by rw [h12, h8]; exact hact2
  have hobjs2 : w4.objs = (((G.set j ⟨{ g'.obj with tok := t' }, g'.N, g'.l, 0, g'.act⟩).set i ⟨⟨g'.obj.kd, g'.obj.v, t⟩, g'.N, g'.l, 0, g'.act⟩).map Gh.obj) := by
    rw [h11, h7, k2, modify_set hgo1, h2, h.objs]
    by_cases hij : i = j
    · subst hij
      rw [hg] at hg'; cases hg'
      have e1 : (G.map Gh.obj)[i]? = some g.obj := by rw [List.getElem?_map, hg]; rfl
      rw [modify_set (set_get e1), modify_set (set_get (set_get e1)), List.set_set, List.set_set, List.set_set, List.map_set]
    · have e1 : ((G.map Gh.obj).set j { g'.obj with tok := t' })[i]? = some g.obj := by
        rw [List.getElem?_set_ne (Ne.symm hij), List.getElem?_map, hg]; rfl
      rw [modify_set e1, modify_set (set_get e1), List.set_set, List.map_set, List.map_set, ← hkk]
  refine ⟨⟨_, hobjs2, ?_, ?_⟩, ?_⟩
  · refine f2_set hlj1 i (s := s') ?_
    exact hl'
  · by_cases hij : i = j
    · subst hij
      rw [hg] at hg'; cases hg'
      have c1 := hb.ownerAt (set_get hgi) (o := { g.obj with tok := t }) (b := g.act) (next' := w4.next) rfl (Nat.le_trans h3 hn2) (fun ha => by
        have := hact4 ha
        exact ⟨this.1, by have := this.2; simp only; omega⟩)
      rw [List.set_set, List.set_set] at c1
      rw [List.set_set]
      exact c1
    · rw [List.getElem?_set_ne (Ne.symm hij), hg] at hgi
      cases hgi
      have e1 : ((G.set j (⟨{ g'.obj with tok := t' }, g'.N, g'.l, 0, false⟩ : Gh T)).set i ⟨{ g.obj with v := g'.obj.v }, g'.N, g'.l, 0, g.act⟩)[j]? = some ⟨{ g'.obj with tok := t' }, g'.N, g'.l, 0, false⟩ := by
        rw [List.getElem?_set_ne hij]; exact set_get hg'
      have c1 := hb.ownerAt e1 (o := { g'.obj with tok := t' }) (b := g'.act) (next' := w1.next) rfl h3 (fun ha => hact _ rfl ha)
      rw [List.set_comm _ _ hij, List.set_set] at c1
      have e2 : ((G.set j (⟨{ g'.obj with tok := t' }, g'.N, g'.l, 0, g'.act⟩ : Gh T)).set i ⟨{ g.obj with v := g'.obj.v }, g'.N, g'.l, 0, g.act⟩)[i]? = some ⟨{ g.obj with v := g'.obj.v }, g'.N, g'.l, 0, g.act⟩ := by
        rw [List.getElem?_set_self]
        rw [List.length_set]; exact getElem?_lt hg
      have c2 := c1.ownerAt e2 (o := ⟨g'.obj.kd, g'.obj.v, t⟩) (b := g'.act) (next' := w4.next) rfl hn2 hact4
      rw [List.set_set] at c2
      exact c2
  · rw [k1, h1] at h10
    refine h10.mono ?_
    intro r hr
    rw [h.objs, roots_some, flat_ptrs, ← List.eraseIdx_map] at hr
    rw [flat_ptrs, ← List.eraseIdx_map, List.map_set, set_same (by rw [List.getElem?_map, hg']; rfl)]
    exact hr

/-! #### Operations -/

theorem legal_run {o : K.Op} (hs : M[i]? = some s) (hleg : Spec.Legal S M i o) : ∃ l', S.run o s.val = some l' := Option.ne_none_iff_exists'.mp (hleg s hs)

theorem apply_call (hA : Laws c E K S Good Tm) (h : RelG c E Good er et w G M) (o : K.Op) (hleg : Spec.Legal S M i o) (hok : ∀ h, w.objs[i]? = some h → Tm.ok false w.st.fault h.v o) :
    AOut (withObj i (some .value) (fun h => (lift (K.apply E er et h.v o)).bind fun x => push ⟨.value, x, 0⟩) w)
      (fun w' _ => Post c E Good er et w none (Spec.on M i (some .value) fun s => ((S.run o s.val).map fun l => M ++ [⟨.value, l⟩]).getD M) w')
      (fun w' => Post c E Good er et w none M w' ∧ w.st.fault ≠ none) := by
  refine withObj_out (Q := fun M' w' => Post c E Good er et w none M' w') h ⟨⟨G, h⟩, h.keeps_refl⟩ ?_
  intro g s hg hs hl hk hgo
  have hk := value_of hk
  have hmem := List.mem_of_getElem? hg
  have ht := sound_t0 h.sound hmem hl (.inl (by rw [hk]; exact fun h => by cases h))
  obtain ⟨l', hl'⟩ := legal_run hs hleg
  obtain ⟨hp1, hp2⟩ := at_perm hg
  have hp := h.sound.perm hp1
  have hf := hp.first
  rw [ht] at hf
  have hgt := h.sound.tree g hmem
  have hsub : ∀ r ∈ G.flatMap Gh.refs, r ∈ refs g.obj.v g.N 0 ++ (sRefs T er et ++ (G.eraseIdx i).flatMap Gh.refs) := by
    intro r hr
    have := (hp1.flatMap_right Gh.refs).mem_iff.mp hr
    rw [List.flatMap_cons, Gh.refs, ht] at this
    rcases List.mem_append.mp this with this | this
    · exact List.mem_append_left _ this
    · exact List.mem_append_right _ (List.mem_append_right _ this)
  refine aout_bind (aout_mono (aout_lift (out_fault (hA.calmApply er et g.obj.v o) (hA.apply hgt.1 hgt.2 (by rw [hl.2.2]; exact hl') (hok _ hgo) ⟨List.mem_append_right _ statics_mem.1, List.mem_append_right _ statics_mem.2⟩ hf)))
    (fun _ _ h => h) ?_) ?_
  · rintro w1 ⟨⟨⟨h1, h2⟩, h3⟩, h4, h5⟩
    refine ⟨⟨⟨G, by rw [h4]; exact h.objs, h.loc, ?_⟩, h.keeps_sub hf (fun _ h => h) hsub h2⟩, h3⟩
    rw [h5]
    have : Sound c E Good er et w1.st.mem w.next (g :: G.eraseIdx i) := { hp with inv := h1.permL (by rw [← ht]; exact last_perm) }
    exact this.perm hp1.symm
  · rintro w1 x ⟨⟨⟨N', h1, h2, h3, h4⟩, -⟩, h5, h6⟩
    refine ⟨⟨G ++ [(⟨⟨.value, x, 0⟩, N', l', 0, false⟩ : Gh T)], ?_, ?_, ?_⟩, h.keeps_sub hf (fun _ h => h) hsub h4⟩
    · show w1.objs ++ _ = _
      rw [h5, h.objs, List.map_append]; rfl
    · rw [hl']
      exact f2_push h.loc ⟨rfl, by simp, rfl⟩
    · show Sound c E Good er et w1.st.mem w1.next _
      rw [h6]
      refine (hp.add (o := ⟨.value, x, 0⟩) rfl (h3.permL (List.Perm.append_left _ ?_)) h1 h2).perm ?_
      · rw [← ht]; exact last_perm
      · exact ((hp1.symm.cons _).trans (List.perm_append_singleton _ _).symm)

/-- `elem = fn(std::move(elem))` -/
theorem applyFn_out {st : St Dat T} {p j : Nat} {cl : Cell Dat T} {x : T} (fn : Fn T) (hc : st.mem p = some cl) (hx : cl.els[j]? = some (.live x)) :
    Out (applyFn fn p j st) (fun s' _ => s'.mem = upd st.mem p (some { cl with els := cl.els.set j (.live (fn.f x)) }))
      (fun s' => fn.user = true ∧ s'.mem = upd st.mem p (some { cl with els := cl.els.set j (.live (fn.left x)) }) ∧ st.fault.map Prod.fst = some .user) := by
  unfold applyFn
  rw [bind_ok (moveEl_eq hc hx)]
  have hlt := getElem?_lt hx
  have hset : ∀ (y : T) (s1 : St Dat T), s1.mem = upd st.mem p (some { cl with els := cl.els.set j .moved }) →
      assignEl p j y s1 = .ok { s1 with mem := upd st.mem p (some { cl with els := cl.els.set j (.live y) }) } () := by
    intro y s1 hs1
    rw [assignEl_eq (c := { cl with els := cl.els.set j .moved }) (w := x) (by rw [hs1, upd_self]) (.inr (by show (cl.els.set j .moved)[j]? = _; rw [List.getElem?_set_self hlt])), hs1, upd_upd]
    simp only [List.set_set]
  refine out_bind (Q := fun s1 _ => s1.mem = upd st.mem p (some { cl with els := cl.els.set j .moved })) ?_ ?_
  · refine out_guard (E' := fun s1 => fn.user = true ∧ s1.mem = upd st.mem p (some { cl with els := cl.els.set j .moved }) ∧ st.fault.map Prod.fst = some .user) ?_ ?_
    · split
      · rename_i hu
        exact out_mono tick_full (fun _ _ h => h.1) (fun _ h => ⟨hu, h.1, h.2.2⟩)
      · rfl
    · rintro s1 ⟨hu, hs1, hk⟩
      rw [hset _ _ hs1]
      exact ⟨hu, rfl, hk⟩
  · intro s1 _ hs1
    rw [hset _ _ hs1]
    rfl

/-- an operation that changes the object -/
theorem mut_call (hA : Laws c E K S Good Tm) (h : RelG c E Good er et w G M) (o : K.Op) (hg : G[i]? = some g) (hs : M[i]? = some s) (hl : Local E.gc g s)
    {e : Nat} (hgo : w.objs[i]? = some g.obj) (he : E.gc = true → s.kd = .transient ∧ e = g.obj.tok) {l' : List T} (hr : S.run o s.val = some l') (hok : Tm.ok true w.st.fault g.obj.v o) :
    AOut (inPlace K E er et i e g.obj o w) (fun w' _ => Post c E Good er et w (some i) (M.set i ⟨s.kd, l'⟩) w')
      (fun w' => (Post c E Good er et w (some i) M w' ∨ ∃ l₂, S.left o s.val = some l₂ ∧ Post c E Good er et w (some i) (M.set i ⟨s.kd, l₂⟩) w' ∧ w.st.fault.map Prod.fst = some .user) ∧ w.st.fault ≠ none) := by
  have hmem := List.mem_of_getElem? hg
  obtain ⟨hp1, hp2⟩ := at_perm hg
  have hp := h.sound.perm hp1
  have hgm : g ∈ g :: G.eraseIdx i := List.mem_cons_self
  -- the token of the nodes
  have hi : Inv (sys c E (toks E.gc w.next (acts (g :: G.eraseIdx i)))) w.st.mem [] (refs g.obj.v g.N e ++ (sRefs T er et ++ (G.eraseIdx i).flatMap Gh.refs)) := by
    by_cases hgc : E.gc = true
    · obtain ⟨hk', rfl⟩ := he hgc
      by_cases h0 : g.t = 0
      · refine inv_retoks hp.first ?_ _
        rw [h0]; exact (toks E.gc w.next _).live0
      · have hf := hp.first
        rw [(hp.tok g hgm h0).2] at hf
        exact hf
    · refine inv_retoks hp.first ?_ _
      rintro ⟨a, _⟩
      exact hgc a
  have hlive : E.gc = true → (toks E.gc w.next (acts (g :: G.eraseIdx i))).live e := by
    intro hgc
    obtain ⟨hk', rfl⟩ := he hgc
    have ha : g.act = true := by rw [hl.2.1, hgc, hk']; rfl
    have := acts_mem hgm ha
    exact ⟨hgc, (hp.lt _ this).1, .inl this⟩
  -- back to the token of the object
  have hback : ∀ {m' : Mem Dat T} {v : Vc} {N : Tree T}, Inv (sys c E (toks E.gc w.next (acts (g :: G.eraseIdx i)))) m' [] (refs v N e ++ (sRefs T er et ++ (G.eraseIdx i).flatMap Gh.refs)) →
      ∃ t, (t ≠ 0 → g.act = true ∧ t = g.obj.tok) ∧ Inv (sys c E (toks E.gc w.next (acts (g :: G.eraseIdx i)))) m' [] (refs v N t ++ (sRefs T er et ++ (G.eraseIdx i).flatMap Gh.refs)) := by
    intro m' v N hi'
    by_cases hgc : E.gc = true
    · obtain ⟨hk', rfl⟩ := he hgc
      have ha : g.act = true := by rw [hl.2.1, hgc, hk']; rfl
      exact ⟨_, fun _ => ⟨ha, rfl⟩, hi'⟩
    · exact ⟨0, fun h => absurd rfl h, inv_retoks hi' (fun ⟨a, _⟩ => hgc a) _⟩
  -- the end of the call
  have hend : ∀ {w' : World T} {v : Vc} {l₂ : List T}, w'.objs = w.objs.modify i (fun h => { h with v := v }) → w'.next = w.next →
      Filled c E (toks E.gc w.next (acts (g :: G.eraseIdx i))) Good [] (sRefs T er et ++ (G.eraseIdx i).flatMap Gh.refs) w.st.mem e v w'.st.mem l₂ →
      Post c E Good er et w (some i) (M.set i ⟨s.kd, l₂⟩) w' := by
    rintro w' v l₂ ho hn ⟨N, h1, h2, h3, h4⟩
    obtain ⟨t, ht, h5⟩ := hback h3
    have h6 := (hp.put (o := { g.obj with v := v }) rfl rfl h5 ht h1 h2).perm (hp2 _).symm
    refine ⟨⟨_, ?_, ?_, (by rw [hn]; exact h6)⟩, ?_⟩
    · rw [ho, modify_set hgo, h.objs, List.map_set]
    · exact f2_set h.loc i ⟨hl.1, hl.2.1, rfl⟩
    · rw [h.objs, roots_some]
      exact kept_rest hi h4
  have hgt := h.sound.tree g hmem
  unfold inPlace
  refine aout_bind (aout_mono (aout_lift (out_fault (hA.calmMut er et e g.obj.v o) (hA.applyMut hlive hgt.1 hgt.2 (by rw [hl.2.2]; exact hr) hok statics_mem hi)))
    (fun _ _ h => h) ?_) ?_
  · rintro w1 ⟨⟨⟨h1, h2⟩, h3⟩, h4, h5⟩
    have := hend (w' := w1) (v := g.obj.v) (l₂ := s.val) (by rw [h4, modify_set hgo, set_same hgo]) h5
      ⟨g.N, by rw [← hl.2.2]; exact hgt.1, hgt.2, h1, h2⟩
    rw [set_same hs] at this
    exact ⟨.inl this, h3⟩
  · rintro w1 ⟨v, r⟩ ⟨⟨h1, hf⟩, h2, h3⟩
    rw [bind_setVc]
    cases r with
    | none =>
      obtain ⟨t', k1, k2, k3, k4⟩ := h1
      exact hend (by show w1.objs.modify i _ = _; rw [h2]) h3 ⟨t', k1, k2, k3, k4⟩
    | some r =>
      obtain ⟨p, j, fn⟩ := r
      obtain ⟨cl, x, k1, k2, k3, k4⟩ := h1
      have hcf : Calm (applyFn fn p j) := calm_applyFn fn p j
      refine aout_mono (aout_lift (w := { w1 with objs := w1.objs.modify i fun h => { h with v := v } }) (out_fault hcf (applyFn_out fn k1 k2))) ?_ ?_
      · rintro w2 _ ⟨⟨k5, -⟩, k6, k7⟩
        exact hend (by rw [k6, h2]) (by rw [k7]; exact h3) (by rw [k5]; exact k3)
      · rintro w2 ⟨⟨⟨k5, k5', k11⟩, k8⟩, k6, k7⟩
        obtain ⟨l₂, k9, k10⟩ := k4 k5
        rw [hl.2.2] at k9
        refine ⟨.inr ⟨l₂, k9, hend (by rw [k6, h2]) (by rw [k7]; exact h3) (by rw [k5']; exact k10), ?_⟩, fun hn => k8 (hf.none hn)⟩
        rcases hf with hf | hf
        · exact absurd hf k8
        · exact hf.symm.trans k11

theorem applyMut_call (hA : Laws c E K S Good Tm) (h : RelG c E Good er et w G M) (o : K.Op) (hleg : Spec.Legal S M i o) (hw : Spec.Whole M i) (hok : ∀ h, w.objs[i]? = some h → Tm.ok true w.st.fault h.v o) :
    AOut (step c K E er et (.applyMut i o) w) (fun w' _ => Post c E Good er et w (some i) (Spec.step S E.gc M (.applyMut i o)) w')
      (fun w' => (∃ M' ∈ Spec.failed S E.gc M w.st.fault (.applyMut i o), Post c E Good er et w (some i) M' w') ∧ w.st.fault ≠ none) := by
  rw [step, Spec.step]
  refine withObj_out (Q := fun M' w' => Post c E Good er et w (some i) M' w') h ⟨⟨G, h⟩, h.keeps_refl⟩ ?_
  intro g s hg hs hl hk hgo
  have hk' := transient_of hk hs hw
  obtain ⟨l', hr⟩ := legal_run hs hleg
  refine aout_mono (mut_call hA h o hg hs hl (e := g.obj.tok) hgo (fun _ => ⟨hk', rfl⟩) hr (hok _ hgo)) ?_ ?_
  · intro w' _ hP
    rw [hr]
    rw [hk'] at hP
    exact hP
  · rintro w' ⟨hP, hf⟩
    refine ⟨?_, hf⟩
    rcases hP with hP | ⟨l₂, h1, hP, hu⟩
    · exact ⟨M, by rw [Spec.failed]; exact List.mem_cons_self, hP⟩
    · refine ⟨_, ?_, hP⟩
      rw [Spec.failed]
      rw [if_pos hu]
      refine List.mem_cons_of_mem _ (List.mem_singleton.mpr ?_)
      unfold Spec.on
      rw [hs]
      simp only
      rw [if_pos hk, h1, hk']
      rfl

theorem applyMove_call (hA : Laws c E K S Good Tm) (h : RelG c E Good er et w G M) (o : K.Op) (hleg : Spec.Legal S M i o) (hok : ∀ h, w.objs[i]? = some h → Tm.ok (!E.gc) w.st.fault h.v o) :
    AOut (step c K E er et (.applyMove i o) w) (fun w' _ => Post c E Good er et w (Spec.hurt E.gc (.applyMove i o : Cmd T K.Op)) (Spec.step S E.gc M (.applyMove i o)) w')
      (fun w' => (∃ M' ∈ Spec.failed S E.gc M w.st.fault (.applyMove i o), Post c E Good er et w (Spec.hurt E.gc (.applyMove i o : Cmd T K.Op)) M' w') ∧ w.st.fault ≠ none) := by
  rw [step, Spec.step, Spec.hurt]
  by_cases hgc : E.gc = true
  · simp only [hgc, if_true]
    exact aout_mono (apply_call hA h o hleg (by rw [hgc] at hok; exact hok)) (fun _ _ h => h) (fun _ h => ⟨⟨M, by rw [Spec.failed]; exact List.mem_cons_self, h.1⟩, h.2⟩)
  · simp only [hgc, if_false]
    refine withObj_out (Q := fun M' w' => Post c E Good er et w (some i) M' w') h ⟨⟨G, h⟩, h.keeps_refl⟩ ?_
    intro g s hg hs hl hk hgo
    have hk' := value_of hk
    obtain ⟨l', hr⟩ := legal_run hs hleg
    refine aout_mono (mut_call hA h o hg hs hl (e := 0) hgo (fun h => absurd h hgc) hr (by have := hok _ hgo; simpa [hgc] using this)) ?_ ?_
    · intro w' _ hP
      rw [hr]
      rw [hk'] at hP
      exact hP
    · rintro w' ⟨hP, hf⟩
      refine ⟨?_, hf⟩
      rcases hP with hP | ⟨l₂, h1, hP, hu⟩
      · exact ⟨M, by rw [Spec.failed]; exact List.mem_cons_self, hP⟩
      · refine ⟨_, ?_, hP⟩
        rw [Spec.failed]
        rw [if_pos hu]
        refine List.mem_cons_of_mem _ (List.mem_singleton.mpr ?_)
        unfold Spec.on
        rw [hs]
        simp only
        rw [if_pos hk, h1, hk']
        rfl

/-- any call -/
theorem step_out (hA : Laws c E K S Good Tm) (h : RelG c E Good er et w G M) (x : Cmd T K.Op) (ha : Spec.Allowed S M x) (hok : Tm.On E.gc w w.st.fault x) :
    AOut (step c K E er et x w) (fun w' _ => Post c E Good er et w (Spec.hurt E.gc x) (Spec.step S E.gc M x) w')
      (fun w' => (∃ M' ∈ Spec.failed S E.gc M w.st.fault x, Post c E Good er et w (Spec.hurt E.gc x) M' w') ∧ w.st.fault ≠ none) := by
  have one : ∀ {r : Ans T Unit} {Q : World T → Unit → Prop} {hu : Option Nat}, Spec.failed S E.gc M w.st.fault x = [M] → AOut r Q (fun w' => Post c E Good er et w hu M w' ∧ w.st.fault ≠ none) →
      AOut r Q (fun w' => (∃ M' ∈ Spec.failed S E.gc M w.st.fault x, Post c E Good er et w hu M' w') ∧ w.st.fault ≠ none) :=
    fun he hr => aout_mono hr (fun _ _ h => h) (fun _ h => ⟨⟨M, by rw [he]; exact List.mem_cons_self, h.1⟩, h.2⟩)
  cases x with
  | new kd => exact one rfl (new_out hA h kd)
  | ofRange xs => exact one rfl (ofRange_out hA h xs hok)
  | copy i => exact one rfl (copy_out h ha)
  | move i => exact aout_mono (moveTo_out hA h) (fun _ _ h => h) (fun _ h => h.elim)
  | assign i j => exact one rfl (assign_out hA h ha)
  | moveAssign i j => exact aout_mono (moveAssign_out h ha) (fun _ _ h => h) (fun _ h => h.elim)
  | destroy i => exact aout_mono (destroy_out hA h) (fun _ _ h => h) (fun _ h => h.elim)
  | transient i => exact one rfl (transient_out h)
  | transientMove i => exact aout_mono (transientMove_out hA h) (fun _ _ h => h) (fun _ h => ⟨⟨_, by rw [Spec.failed]; exact List.mem_cons_self, h.1⟩, h.2⟩)
  | persistent i => exact one rfl (persistent_out h ha)
  | persistentMove i => exact aout_mono (persistentMove_out hA h) (fun _ _ h => h) (fun _ h => h.elim)
  | apply i o =>
    refine one rfl ?_
    rw [step, Spec.step]
    exact apply_call hA h o ha hok
  | applyMove i o => exact applyMove_call hA h o ha hok
  | applyMut i o => exact applyMut_call hA h o ha.1 ha.2 hok

theorem call_out (hA : Laws c E K S Good Tm) (h : Rel c E Good er et w M) (f : Option (Kind × Nat)) (x : Cmd T K.Op) (ha : Spec.Allowed S M x) (hok : Tm.On E.gc w f x) :
    AOut (call c K E er et f x w) (fun w' _ => Post c E Good er et w (Spec.hurt E.gc x) (Spec.step S E.gc M x) w')
      (fun w' => (∃ M' ∈ Spec.failed S E.gc M f x, Post c E Good er et w (Spec.hurt E.gc x) M' w') ∧ f ≠ none) := by
  obtain ⟨G, h⟩ := h
  exact step_out (w := { w with st := { w.st with fault := f } }) hA (h.eq rfl rfl rfl) x ha (by cases x <;> exact hok)

/-- the static nodes -/
theorem start_rel (hne : er ≠ et) : Rel c E Good er et (start c E er et) [] := by
  refine ⟨[], rfl, .nil, ?_, List.nodup_nil, (fun t ht => by cases ht), Nat.one_pos, (fun g hg => by cases hg), (fun g hg => by cases hg), (fun g hg => by cases hg)⟩
  have hr : (start c E er et).st.mem er = some ⟨1, 0, [], .inner (if E.gc then 0 else 2 ^ c.B) none []⟩ := by simp [start, upd, hne]
  have ht : (start c E er et).st.mem et = some ⟨1, 0, List.replicate (if E.gc then 0 else 2 ^ c.BL) .raw, .leaf⟩ := by simp [start, upd]
  have hno : ∀ p, p ≠ er → p ≠ et → (start c E er et).st.mem p = none := by
    intro p h1 h2
    simp [start, upd, h1, h2]
  refine ⟨[er, et], [], fun p => if p = er then .node emptyRoot else .node emptyTail, fun _ => rfl, ?_⟩
  have hme : ∀ p cl, (start c E er et).st.mem p = some cl → (p = er ∧ cl = ⟨1, 0, [], .inner (if E.gc then 0 else 2 ^ c.B) none []⟩) ∨
      (p = et ∧ cl = ⟨1, 0, List.replicate (if E.gc then 0 else 2 ^ c.BL) .raw, .leaf⟩) := by
    intro p cl hc
    by_cases hp : p = er
    · subst hp; rw [hr] at hc; cases hc; exact .inl ⟨rfl, rfl⟩
    · by_cases hp' : p = et
      · subst hp'; rw [ht] at hc; cases hc; exact .inr ⟨rfl, rfl⟩
      · rw [hno p hp hp'] at hc; cases hc
  have htot : ∀ p, total (sys c E (toks E.gc (start c E er et).next (acts ([] : List (Gh T))))) (start c E er et).st.mem [er, et] (sRefs T er et ++ List.flatMap Gh.refs []) p = if p = er ∨ p = et then 1 else 0 := by
    intro p
    unfold total allRefs outsAt
    simp only [List.flatMap_cons, hr, ht, List.flatMap_nil, List.append_nil]
    show List.count p [er, et] = _
    rw [List.count_cons, List.count_cons]
    by_cases h1 : p = er
    · subst h1
      simp [Ne.symm hne]
    · by_cases h2 : p = et
      · subst h2; simp [hne]
      · simp [h1, h2, Ne.symm h1, Ne.symm h2]
  have hmem : ∀ r ∈ sRefs T er et ++ List.flatMap Gh.refs [], r = ⟨er, .node emptyRoot, 0, false⟩ ∨ r = ⟨et, .node emptyTail, 0, false⟩ := by
    intro r hr'
    simpa [sRefs] using hr'
  exact {
    nodup := by simp [hne]
    alloc := by
      intro p
      show _ ↔ p ∈ [er, et]
      constructor
      · intro hp
        by_contra hn
        simp only [List.mem_cons, List.not_mem_nil, or_false, not_or] at hn
        exact hp (hno p hn.1 hn.2)
      · intro hp
        rcases List.mem_cons.mp hp with rfl | hp
        · rw [hr]; simp
        · rw [List.mem_singleton] at hp
          subst hp; rw [ht]; simp
    ok := by
      intro a _ cl hc
      rcases hme a cl hc with ⟨rfl, rfl⟩ | ⟨rfl, rfl⟩
      · refine ⟨rfl, fun hg => if_neg (by rw [show E.gc = false from hg]; exact Bool.false_ne_true), Nat.zero_le _, none, [], if_pos rfl, rfl, rfl, rfl⟩
      · refine ⟨rfl, fun hg => ?_, [], ⟨_, rfl⟩, if_neg (Ne.symm hne)⟩
        rw [List.length_replicate]
        exact if_neg (by rw [show E.gc = false from hg]; exact Bool.false_ne_true)
    refs := by
      intro p hp
      rw [htot, if_neg (fun h => hp (by simpa using h))]
    rc := by
      intro _ a ha cl hc
      have h1 : total (sys c E (toks E.gc (start c E er et).next (acts ([] : List (Gh T))))) (start c E er et).st.mem [er, et] (sRefs T er et ++ List.flatMap Gh.refs []) a = 1 := by
        rw [htot]
        exact if_pos (by simpa using ha)
      rw [h1]
      rcases hme a cl hc with ⟨rfl, rfl⟩ | ⟨rfl, rfl⟩ <;> exact ⟨rfl, Nat.one_pos⟩
    own := by
      intro a ha cl hc _
      rw [htot]; split <;> omega
    tk := by
      intro a _ cl hc
      rcases hme a cl hc with ⟨rfl, rfl⟩ | ⟨rfl, rfl⟩ <;> exact fun h => absurd rfl h
    outTok := by
      intro a _ cl hc o ho
      rcases hme a cl hc with ⟨rfl, rfl⟩ | ⟨rfl, rfl⟩ <;> cases ho
    val := by
      intro r hr'
      rcases hmem r hr' with rfl | rfl
      · simp
      · simp [Ne.symm hne]
    refTok := by
      intro r hr' cl hc _
      rcases hmem r hr' with rfl | rfl <;> rcases hme _ cl hc with ⟨_, rfl⟩ | ⟨_, rfl⟩ <;> rfl
    uniq := by
      intro r hr' hu
      rcases hmem r hr' with rfl | rfl <;> cases hu }

end
end VecHeap
