import Verif.ChampHeap.Sound

/-!
# Calls on objects (helper lemmas for C22-C24, C27, C37)
-/

namespace ChampHeap
open Mm Champ

section
variable {K T P : Type} {c : Cfg K T} {β δ : Type}

def AOut (r : Ans c β) (Q : World c → β → Prop) (F : World c → Prop) : Prop :=
  match r with
  | .ok w b => Q w b
  | .thrown w => F w
  | .ub => False

variable {w : World c} {Q : World c → β → Prop} {F : World c → Prop}

theorem aout_bind {x : WM c β} {f : β → WM c δ} {Q' : World c → δ → Prop} (h : AOut (x w) Q F)
    (hf : ∀ w' b, Q w' b → AOut (f b w') Q' F) : AOut ((x.bind f) w) Q' F := by
  unfold WM.bind
  cases hx : x w with
  | ok s' b => rw [hx] at h; exact hf s' b h
  | thrown s' => rw [hx] at h; exact h
  | ub => rw [hx] at h; exact h

theorem aout_mono {r : Ans c β} {Q' : World c → β → Prop} {F' : World c → Prop} (h : AOut r Q F) (h1 : ∀ w b, Q w b → Q' w b)
    (h2 : ∀ w, F w → F' w) : AOut r Q' F' := by
  cases r with
  | ok s b => exact h1 s b h
  | thrown s => exact h2 s h
  | ub => exact h

theorem aout_lift {x : HM c.W T β} {Q : St (Dat c.W) T → β → Prop} {F : St (Dat c.W) T → Prop} (h : Out (x w.st) Q F) :
    AOut (lift x w) (fun w' b => Q w'.st b ∧ w'.objs = w.objs ∧ w'.next = w.next) (fun w' => F w'.st ∧ w'.objs = w.objs ∧ w'.next = w.next) := by
  unfold lift
  cases hx : x w.st with
  | ok s' b => rw [hx] at h; exact ⟨h, rfl, rfl⟩
  | thrown s' => rw [hx] at h; exact ⟨h, rfl, rfl⟩
  | ub => rw [hx] at h; exact h

theorem bind_setOwner {i t : Nat} {f : Unit → WM c β} : ((setOwner i t).bind f) w = f () { w with objs := w.objs.modify i fun h => { h with tok := t } } := rfl

theorem bind_setCh {i : Nat} {x : Ch} {f : Unit → WM c β} : ((setCh i x).bind f) w = f () { w with objs := w.objs.modify i fun h => { h with ch := x } } := rfl

end

section
variable {K T P : Type} {A : Api K T P} {E : Env (Dat A.cfg.W) T} {em : Nat} {w : World A.cfg}

/-- same memory, objects and tokens -/
structure Quiet (w w' : World A.cfg) : Prop where
  mem : w'.st.mem = w.st.mem
  objs : w'.objs = w.objs
  next : w'.next = w.next
  fault : w.st.fault ≠ none

theorem tick_full {D S : Type} {k : Kind} {s : St D S} : Out (tick k s) (fun s' _ => s'.mem = s.mem ∧ (s.fault = none → s'.fault = none)) (fun s' => s'.mem = s.mem ∧ s.fault ≠ none) := by
  unfold tick
  cases hf : s.fault with
  | none => exact ⟨rfl, fun _ => hf⟩
  | some x =>
    obtain ⟨k', n⟩ := x
    simp only
    split
    · cases n with
      | zero => exact ⟨rfl, fun h => by cases h⟩
      | succ n => exact ⟨rfl, fun h => by cases h⟩
    · exact ⟨rfl, fun h => by cases h⟩

theorem ownerFor_out (kd : Kd) : AOut (ownerFor A E kd w) (fun w' t => w'.st.mem = w.st.mem ∧ w'.objs = w.objs ∧ w.next ≤ w'.next ∧
      (kd = .transient → w.next ≤ t ∧ t < w'.next) ∧ (w.st.fault = none → w'.st.fault = none)) (fun w' => Quiet w w' ∧ E.gc = true) := by
  cases kd with
  | value => exact ⟨rfl, rfl, Nat.le_refl _, (fun h => by cases h), fun h => h⟩
  | transient =>
    show AOut (newTok A E w) _ _
    unfold newTok
    refine aout_bind (Q := fun w' _ => w'.st.mem = w.st.mem ∧ w'.objs = w.objs ∧ w'.next = w.next ∧ (w.st.fault = none → w'.st.fault = none)) ?_ ?_
    · refine aout_mono (aout_lift (Q := fun s' _ => s'.mem = w.st.mem ∧ (w.st.fault = none → s'.fault = none)) (F := fun s' => (s'.mem = w.st.mem ∧ w.st.fault ≠ none) ∧ E.gc = true) ?_)
        (fun w' _ h => ⟨h.1.1, h.2.1, h.2.2, h.1.2⟩) (fun w' h => ⟨⟨h.1.1.1, h.2.1, h.2.2, h.1.1.2⟩, h.1.2⟩)
      split
      · rename_i hg
        exact out_mono tick_full (fun _ _ h => h) (fun _ h => ⟨h, hg⟩)
      · exact ⟨rfl, fun h => h⟩
    · rintro w1 _ ⟨h1, h2, h3, h4⟩
      refine ⟨h1, h2, ?_, ?_, h4⟩
      · show w.next ≤ w1.next + 1
        omega
      · intro _
        show w.next ≤ w1.next ∧ w1.next < w1.next + 1
        omega

/-- what an object stands for -/
def Local (gc : Bool) (g : Gh A) (s : Spec.SObj K T) : Prop :=
  g.obj.kd = s.kd.kd ∧ g.act = (gc && decide (s.kd = .transient)) ∧ look A.cfg (elems A.cfg A.cfg.maxDepth g.N) = s.val

/-- the world is as specified -/
structure RelG (E : Env (Dat A.cfg.W) T) (em : Nat) (w : World A.cfg) (G : List (Gh A)) (M : List (Spec.SObj K T)) : Prop where
  objs : w.objs = G.map Gh.obj
  loc : List.Forall₂ (Local E.gc) G M
  sound : Sound E em w.st.mem w.next G

def Rel (E : Env (Dat A.cfg.W) T) (em : Nat) (w : World A.cfg) (M : List (Spec.SObj K T)) : Prop := ∃ G, RelG E em w G M

/-- the roots of the objects, except one -/
def rootsBut (o : Option Nat) (l : List Obj) : List Nat :=
  (match o with
  | none => l
  | some i => l.eraseIdx i).map fun h : Obj => h.ch.root

def Post (E : Env (Dat A.cfg.W) T) (em : Nat) (w : World A.cfg) (o : Option Nat) (M : List (Spec.SObj K T)) (w' : World A.cfg) : Prop :=
  Rel E em w' M ∧ Keeps A.cfg.maxDepth w.st.mem w'.st.mem (rootsBut o w.objs)

variable {M : List (Spec.SObj K T)} {G : List (Gh A)} {m m' : Mem (Dat A.cfg.W) T} {next next' i j : Nat} {g : Gh A} {hu : Option Nat} {s : Spec.SObj K T}

theorem RelG.eq {w' : World A.cfg} (h : RelG E em w G M) (h1 : w'.st.mem = w.st.mem) (h2 : w'.objs = w.objs) (h3 : w'.next = w.next) : RelG E em w' G M :=
  ⟨by rw [h2]; exact h.objs, h.loc, by rw [h1, h3]; exact h.sound⟩

theorem roots_none : rootsBut none (G.map Gh.obj) = (G.map Gh.ref).map Ref.ptr := by
  unfold rootsBut; simp only [List.map_map]; rfl

theorem roots_some : rootsBut (some i) (G.map Gh.obj) = ((G.eraseIdx i).map Gh.ref).map Ref.ptr := by
  unfold rootsBut; simp only [List.eraseIdx_map, List.map_map]; rfl

theorem roots_mem {r : Nat} {l : List Obj} (h : r ∈ rootsBut hu l) : r ∈ rootsBut none l := by
  cases hu with
  | none => exact h
  | some i =>
    unfold rootsBut at h ⊢
    obtain ⟨o, ho, rfl⟩ := List.mem_map.mp h
    exact List.mem_map.mpr ⟨o, List.mem_of_mem_eraseIdx ho, rfl⟩

theorem RelG.keeps_all (h : RelG E em w G M) (hk : Kept (sys E (toks E.gc w.next (acts G))) [] (emRef A em :: G.map Gh.ref) w.st.mem m') :
    Keeps A.cfg.maxDepth w.st.mem m' (rootsBut hu w.objs) := by
  refine (kept_keeps h.sound.inv hk).mono ?_
  intro r hr
  have := roots_mem hr
  rw [h.objs, roots_none] at this
  exact List.mem_cons_of_mem _ this

theorem RelG.keeps_refl (h : RelG E em w G M) : Keeps A.cfg.maxDepth w.st.mem w.st.mem (rootsBut hu w.objs) := h.keeps_all .refl

theorem RelG.quiet {w' : World A.cfg} (h : RelG E em w G M) (hq : Quiet w w') : Post E em w hu M w' :=
  ⟨⟨G, h.eq hq.mem hq.objs hq.next⟩, by rw [hq.mem]; exact h.keeps_refl⟩

/-- calls on an object -/
theorem withObj_out {kd : Option Kd} {f : Obj → WM A.cfg Unit} {f' : Spec.SObj K T → List (Spec.SObj K T)} {Q : List (Spec.SObj K T) → World A.cfg → Prop} {F : World A.cfg → Prop}
    (h : RelG E em w G M) (h0 : Q M w)
    (hf : ∀ g s, G[i]? = some g → M[i]? = some s → Local E.gc g s → (kd = none ∨ kd = some s.kd.kd) → w.objs[i]? = some g.obj → AOut (f g.obj w) (fun w' _ => Q (f' s) w') F) :
    AOut (withObj i kd f w) (fun w' _ => Q (Spec.on M i kd f') w') F := by
  unfold withObj Spec.on
  cases hg : G[i]? with
  | none =>
    have h1 : w.objs[i]? = none := by rw [h.objs, List.getElem?_map, hg]; rfl
    rw [h1, f2_none h.loc hg]
    exact h0
  | some g =>
    have h1 : w.objs[i]? = some g.obj := by rw [h.objs, List.getElem?_map, hg]; rfl
    obtain ⟨s, h2, h3⟩ := f2_get h.loc hg
    rw [h1, h2]
    simp only
    rw [h3.1]
    split
    · rename_i hk
      exact hf g s hg h2 h3 hk h1
    · exact h0

theorem Sound.ownerAt (h : Sound E em m next G) (hg : G[i]? = some g) {o : Obj} {b : Bool} (hch : o.ch = g.obj.ch) (hn : next ≤ next')
    (hb : b = true → E.gc = true ∧ next ≤ o.tok ∧ o.tok < next') : Sound E em m next' (G.set i ⟨o, g.N, 0, b⟩) := by
  obtain ⟨h1, h2⟩ := at_perm hg
  exact ((h.perm h1).owner hch hn hb).perm (h2 _).symm

theorem Sound.push (h : Sound E em m next (g :: G)) : Sound E em m next (G ++ [g]) := h.perm (List.perm_append_singleton g G).symm

theorem Sound.pop (h : Sound E em m next (G ++ [g])) : Sound E em m next (g :: G) := h.perm (List.perm_append_singleton g G)

theorem Sound.em_mem (_ : Sound E em m next G) : (⟨em, .node emptyNode, 0, false⟩ : Ref (Val A.cfg.W T)) ∈ emRef A em :: G.map Gh.ref := List.mem_cons_self

theorem empty_map (hA : A.Lawful) : (⟨emptyNode, 0⟩ : Map A.cfg).Inv := Map.empty_inv hA.cfg

theorem empty_look (hA : A.Lawful) : look A.cfg (elems A.cfg A.cfg.maxDepth (emptyNode : A.cfg.N)) = Champ.Spec.empty := by
  have : elems A.cfg A.cfg.maxDepth (emptyNode : A.cfg.N) = [] := Map.empty_els hA.cfg
  rw [this]; rfl

/-- an empty container -/
theorem Sound.empty (hA : A.Lawful) {st : St (Dat A.cfg.W) T} (h : Sound E em st.mem next G) :
    Out (Ch.empty A E em st) (fun s' x => (∀ o : Obj, o.ch = x → Sound E em s'.mem next (⟨o, emptyNode, 0, false⟩ :: G)) ∧
      Kept (sys E (toks E.gc next (acts G))) [] (emRef A em :: G.map Gh.ref) st.mem s'.mem) (fun _ => False) := by
  unfold Ch.empty
  refine out_bind (empty_out h.em_mem h.inv) ?_
  rintro s' r ⟨rfl, h1, h2⟩
  exact ⟨fun o ho => h.add ho h1 (empty_map hA), h2⟩

/-- a copy of an object that owns nothing -/
theorem Sound.copy {st : St (Dat A.cfg.W) T} {y : Ch} (h : Sound E em st.mem next G) (hg : g ∈ G) (ht : g.t = 0) (hy : y = g.obj.ch) :
    Out (y.copy A E st) (fun s' x => x = y ∧ (∀ o : Obj, o.ch = x → Sound E em s'.mem next (⟨o, g.N, 0, false⟩ :: G)) ∧
      Inv (sys E (toks E.gc next (acts G))) s'.mem [] (⟨x.root, .node g.N, 0, false⟩ :: emRef A em :: G.map Gh.ref) ∧
      Kept (sys E (toks E.gc next (acts G))) [] (emRef A em :: G.map Gh.ref) st.mem s'.mem) (fun _ => False) := by
  subst hy
  unfold Ch.copy
  refine out_bind (inc_out (x := g.obj.ch) (N := g.N) (t := g.t) h.inv (List.mem_cons_of_mem _ (List.mem_map_of_mem hg)) (h.unowned hg ht) 0) ?_
  rintro s' _ ⟨h1, h2, h3⟩
  exact ⟨rfl, fun o ho => h.add ho h1 (h.map g hg), h1, h2⟩

theorem local_act (h : Local E.gc g s) (ha : g.act = true) : E.gc = true ∧ g.obj.kd = .transient := by
  obtain ⟨h1, h2, h3⟩ := h
  rw [ha] at h2
  have := (Bool.and_eq_true_iff.mp h2.symm)
  refine ⟨this.1, ?_⟩
  rw [h1, of_decide_eq_true this.2]
  rfl

/-! ### Calls -/

theorem new_out (hA : A.Lawful) (h : RelG E em w G M) (kd : Kd) :
    AOut (step A E em (.new kd : Cmd K T P) w) (fun w' _ => Post E em w none (Spec.step A E.gc M (.new kd : Cmd K T P)) w') (fun w' => Post E em w none M w' ∧ w.st.fault ≠ none) := by
  rw [step]
  refine aout_bind (aout_mono (ownerFor_out kd) (fun _ _ h => h) (fun w' ⟨hq, _⟩ => ⟨h.quiet hq, hq.fault⟩)) ?_
  rintro w1 t ⟨h1, h2, h3, h4, h5⟩
  have hs : Sound E em w1.st.mem w.next G := by rw [h1]; exact h.sound
  refine aout_bind (aout_mono (aout_lift (Sound.empty hA hs)) (fun _ _ h => h) (fun w' hq => hq.1.elim)) ?_
  rintro w2 x ⟨⟨h6, h7⟩, h8, h9⟩
  have h10 := (h6 ⟨kd, x, t⟩ rfl).owner (o := ⟨kd, x, t⟩) (b := E.gc && decide (Spec.SKd.of kd = .transient)) (next' := w2.next) rfl (by rw [h9]; exact h3) (by
    intro hb
    have := Bool.and_eq_true_iff.mp hb
    refine ⟨this.1, ?_⟩
    rw [h9]
    apply h4
    cases kd with
    | value => simp [Spec.SKd.of] at this
    | transient => rfl)
  refine ⟨⟨G ++ [⟨⟨kd, x, t⟩, emptyNode, 0, E.gc && decide (Spec.SKd.of kd = .transient)⟩], ?_, ?_, h10.push⟩, ?_⟩
  · show w2.objs ++ _ = _
    rw [h8, h2, h.objs, List.map_append]; rfl
  · refine f2_push h.loc ⟨?_, rfl, empty_look hA⟩
    cases kd <;> rfl
  · rw [h1] at h7
    exact h.keeps_all h7

theorem ofRange_out (hA : A.Lawful) (hE : E.Fresh) (h : RelG E em w G M) (hf : w.st.fault = none) (xs : List T) :
    AOut (step A E em (.ofRange xs : Cmd K T P) w) (fun w' _ => Post E em w none (Spec.step A E.gc M (.ofRange xs : Cmd K T P)) w') (fun w' => False) := by
  rw [step]
  refine aout_bind (aout_mono (ownerFor_out .transient) (fun _ _ h => h) (fun w' ⟨hq, _⟩ => hq.fault hf)) ?_
  rintro w1 t ⟨h1, h2, h3, h4, h5⟩
  obtain ⟨h4a, h4b⟩ := h4 rfl
  have hs : Sound E em w1.st.mem w.next G := by rw [h1]; exact h.sound
  have hce : Calm (Ch.empty A E em) := calm_bind (calm_empty A.cfg E em) fun _ => calm_ret _
  refine aout_bind (aout_mono (aout_lift (out_calm hce (h5 hf) (Sound.empty hA hs))) (fun _ _ h => h) (fun w' hq => hq.1.elim)) ?_
  rintro w2 x ⟨⟨⟨h6, h7⟩, hf2⟩, h8, h9⟩
  have h10 := h6 ⟨.value, x, 0⟩ rfl
  have hinv := h10.inv
  have ha : acts ((⟨⟨.value, x, 0⟩, emptyNode, 0, false⟩ : Gh A) :: G) = acts G := by rw [acts_cons]; rfl
  rw [ha] at hinv
  have hinv : Inv (sys E (toks E.gc w.next (acts G))) w2.st.mem [] (⟨x.root, .node emptyNode, 0, false⟩ :: emRef A em :: G.map Gh.ref) := hinv.permL (.swap _ _ _)
  have hinv := inv_retok hinv (toks E.gc w.next (acts G)).live0 t rfl
  have hpos := h.sound.pos
  have hsz : (⟨emptyNode, x.size⟩ : Map A.cfg).Inv := h10.map _ List.mem_cons_self
  refine aout_bind (aout_mono (aout_lift (inserts_calm hA hE (t := t) (u := toks E.gc w.next (acts G)) (e := t) (O := []) (L := emRef A em :: G.map Gh.ref) (fun hg => ⟨hg, by omega, .inr h4a⟩) (fun _ => rfl) h.sound.em_mem xs x emptyNode false w2.st hinv hsz hf2))
    (fun _ _ h => h) (fun w' hq => hq.1)) ?_
  rintro w3 y ⟨⟨⟨N', k1, k2, k3, k4⟩, hf3⟩, k5, k6⟩
  -- the token is given up
  have hnx : w.next ≤ w3.next := by rw [k6, h9]; exact h3
  have k7 : Inv (sys E (toks E.gc w3.next (acts G))) w3.st.mem [] (⟨y.root, .node N', 0, false⟩ :: emRef A em :: G.map Gh.ref) := by
    refine inv_retok (inv_shrink k3 (u' := toks E.gc w3.next (acts G)) (fun t' ⟨a, b, d⟩ => ⟨a, b, d.imp_right (Nat.le_trans hnx)⟩)) ?_ 0 rfl
    rintro ⟨a, b, d⟩
    simp only at d
    rcases d with d | d
    · have := h.sound.lt t d
      omega
    · rw [k6, h9] at d
      omega
  have k8 := (h.sound.later hnx).add (o := ⟨.value, y, 0⟩) rfl k7 k1
  refine ⟨⟨G ++ [⟨⟨.value, y, 0⟩, N', 0, false⟩], ?_, ?_, k8.push⟩, ?_⟩
  · show w3.objs ++ _ = _
    rw [k5, h8, h2, h.objs, List.map_append]; rfl
  · refine f2_push h.loc ⟨rfl, by simp, ?_⟩
    rw [k2, empty_look hA]
  · rw [h1] at h7
    exact h.keeps_all (h7.trans k4)

theorem copy_out (h : RelG E em w G M) (hw : Spec.Whole M i) :
    AOut (step A E em (.copy i : Cmd K T P) w) (fun w' _ => Post E em w none (Spec.step A E.gc M (.copy i : Cmd K T P)) w') (fun w' => Post E em w none M w' ∧ w.st.fault ≠ none) := by
  rw [step, Spec.step]
  refine withObj_out (Q := fun M' w' => Post E em w none M' w') h ⟨⟨G, h⟩, h.keeps_refl⟩ ?_
  intro g s hg hs hl _ hgo
  refine aout_bind (aout_mono (ownerFor_out g.obj.kd) (fun _ _ h => h) (fun w' ⟨hq, _⟩ => ⟨h.quiet hq, hq.fault⟩)) ?_
  rintro w1 t ⟨h1, h2, h3, h4, h5⟩
  refine aout_bind (aout_mono (ownerFor_out g.obj.kd) (fun _ _ h => h) (fun w' ⟨hq, _⟩ =>
    ⟨⟨⟨G, by rw [hq.objs, h2]; exact h.objs, h.loc, by rw [hq.mem, hq.next, h1]; exact h.sound.later h3⟩, by rw [hq.mem, h1]; exact h.keeps_refl⟩, fun hn => hq.fault (h5 hn)⟩)) ?_
  rintro w2 t' ⟨k1, k2, k3, k4, k5⟩
  rw [bind_setOwner]
  have hs1 : Sound E em w2.st.mem w.next (G.set i ⟨{ g.obj with tok := t' }, g.N, 0, false⟩) := by
    rw [k1, h1]; exact h.sound.ownerAt hg rfl (Nat.le_refl _) (fun h => by cases h)
  have hmem := List.mem_of_getElem? (set_get (y := (⟨{ g.obj with tok := t' }, g.N, 0, false⟩ : Gh A)) hg)
  refine aout_bind (aout_mono (aout_lift (w := { w2 with objs := w2.objs.modify i fun h => { h with tok := t' } }) (hs1.copy hmem rfl rfl)) (fun _ _ h => h) (fun w' hq => hq.1.elim)) ?_
  rintro w3 x ⟨⟨rfl, h6, h7, h8⟩, h9, h10⟩
  simp only at h9 h10
  have h11 := (h6 ⟨g.obj.kd, g.obj.ch, t⟩ rfl).owner (o := ⟨g.obj.kd, g.obj.ch, t⟩) (b := g.act) (next' := w1.next) rfl h3 (fun ha => ⟨(local_act hl ha).1, h4 (local_act hl ha).2⟩)
  have h12 := h11.push
  have h13 := h12.ownerAt (i := i) (g := ⟨{ g.obj with tok := t' }, g.N, 0, false⟩) (o := { g.obj with tok := t' }) (b := g.act) (next' := w3.next) (by
    rw [List.getElem?_append_left (by rw [List.length_set]; exact getElem?_lt hg)]
    exact set_get hg) rfl (by rw [h10]; exact k3) (fun ha => ⟨(local_act hl ha).1, by rw [h10]; exact k4 (local_act hl ha).2⟩)
  rw [List.set_append_left _ _ (by rw [List.length_set]; exact getElem?_lt hg), List.set_set] at h13
  refine ⟨⟨_, ?_, ?_, h13⟩, ?_⟩
  · show w3.objs ++ _ = _
    rw [h9, k2, h2, modify_set hgo, h.objs, List.map_append, List.map_set]; rfl
  · have := f2_set h.loc i (g := ⟨{ g.obj with tok := t' }, g.N, 0, g.act⟩) (s := s) hl
    rw [set_same hs] at this
    exact f2_push this hl
  · -- the nodes
    have := kept_keeps (d := A.cfg.maxDepth) hs1.inv h8
    rw [k1, h1] at this
    refine this.mono ?_
    intro r hr
    rw [h.objs, roots_none] at hr
    refine List.mem_cons_of_mem _ ?_
    have he : (List.map Gh.ref (G.set i ⟨{ g.obj with tok := t' }, g.N, 0, false⟩)).map Ref.ptr = (G.map Gh.ref).map Ref.ptr := by
      rw [List.map_map, List.map_map, List.map_set]
      refine set_same ?_
      rw [List.getElem?_map, hg]; rfl
    rw [he]; exact hr

/-! #### Moves -/

theorem Sound.moveOut {y : Gh A} (h : Sound E em m next (y :: G)) (hg : G[i]? = some g) : Sound E em m next (G.set i y ++ [g]) :=
  h.perm ((move_perm hg y).1.trans ((move_perm hg y).2 g).symm)

theorem Sound.moveOwn {y : Gh A} (h : Sound E em m next (y :: G)) (hg : G[i]? = some g) {o : Obj} {b : Bool} (hch : o.ch = g.obj.ch) (hn : next ≤ next')
    (hb : b = true → E.gc = true ∧ next ≤ o.tok ∧ o.tok < next') : Sound E em m next' (G.set i y ++ [⟨o, g.N, 0, b⟩]) :=
  ((h.perm (move_perm hg y).1).owner hch hn hb).perm ((move_perm hg y).2 _).symm

theorem local_moved (hA : A.Lawful) (hl : Local E.gc g s) (x : Ch) : Local E.gc (⟨{ g.obj with ch := x }, emptyNode, 0, false⟩ : Gh A) ⟨s.kd.moved E.gc, Champ.Spec.empty⟩ := by
  obtain ⟨h1, h2, h3⟩ := hl
  refine ⟨?_, ?_, empty_look hA⟩
  · rw [show ({ g.obj with ch := x } : Obj).kd = g.obj.kd from rfl, h1]
    cases s.kd with
    | value => rfl
    | transient => simp only [Spec.SKd.moved]; split <;> rfl
    | shell => simp only [Spec.SKd.moved]; split <;> rfl
  · cases s.kd with
    | value => simp [Spec.SKd.moved]
    | transient => simp only [Spec.SKd.moved]; cases E.gc <;> rfl
    | shell => simp only [Spec.SKd.moved]; cases E.gc <;> rfl

theorem moveTo_out (hA : A.Lawful) (h : RelG E em w G M) :
    AOut (step A E em (.move i : Cmd K T P) w) (fun w' _ => Post E em w none (Spec.step A E.gc M (.move i : Cmd K T P)) w') (fun _ => False) := by
  rw [step, Spec.step]
  refine withObj_out (Q := fun M' w' => Post E em w none M' w') h ⟨⟨G, h⟩, h.keeps_refl⟩ ?_
  intro g s hg hs hl _ hgo
  refine aout_bind (aout_mono (aout_lift (Sound.empty hA h.sound)) (fun _ _ h => h) (fun w' hq => hq.1.elim)) ?_
  rintro w1 x ⟨⟨h1, h2⟩, h3, h4⟩
  rw [bind_setCh]
  refine ⟨⟨_, ?_, ?_, (by show Sound E em w1.st.mem w1.next _; rw [h4]; exact (h1 { g.obj with ch := x } rfl).moveOut hg)⟩, h.keeps_all h2⟩
  · show w1.objs.modify i _ ++ _ = _
    rw [h3, modify_set hgo, h.objs, List.map_append, List.map_set]; rfl
  · exact f2_push (f2_set h.loc i (local_moved hA hl x)) hl

theorem transientMove_out (hA : A.Lawful) (h : RelG E em w G M) :
    AOut (step A E em (.transientMove i : Cmd K T P) w) (fun w' _ => Post E em w none (Spec.step A E.gc M (.transientMove i : Cmd K T P)) w')
      (fun w' => Post E em w none (Spec.failed M (.transientMove i : Cmd K T P)) w' ∧ w.st.fault ≠ none) := by
  rw [step, Spec.step, Spec.failed]
  refine withObj_out (Q := fun M' w' => Post E em w none M' w') h ⟨⟨G, h⟩, h.keeps_refl⟩ ?_
  intro g s hg hs hl hk hgo
  have hk : s.kd = .value := by
    cases hkd : s.kd <;> rw [hkd] at hk <;> simp [Spec.SKd.kd] at hk ⊢
  have hce : Calm (Ch.empty A E em) := calm_bind (calm_empty A.cfg E em) fun _ => calm_ret _
  have hme : Out (Ch.empty A E em w.st) (fun s' x => ((∀ o : Obj, o.ch = x → Sound E em s'.mem w.next (⟨o, emptyNode, 0, false⟩ :: G)) ∧
      Kept (sys E (toks E.gc w.next (acts G))) [] (emRef A em :: G.map Gh.ref) w.st.mem s'.mem) ∧ (w.st.fault = none → s'.fault = none)) (fun _ => False) := by
    have h1 := Sound.empty hA h.sound
    cases hx : Ch.empty A E em w.st with
    | ok s' b =>
      rw [hx] at h1
      refine ⟨h1, fun hf => ?_⟩
      have := hce w.st
      rw [hx] at this; exact Later.none this hf
    | thrown s' => rw [hx] at h1; exact h1
    | ub => rw [hx] at h1; exact h1
  refine aout_bind (aout_mono (aout_lift hme) (fun _ _ h => h) (fun w' hq => hq.1.elim)) ?_
  rintro w1 x ⟨⟨⟨h1, h2⟩, hf1⟩, h3, h4⟩
  rw [bind_setCh]
  have hy := h1 { g.obj with ch := x } rfl
  have hly : Local E.gc (⟨{ g.obj with ch := x }, emptyNode, 0, false⟩ : Gh A) ⟨.value, Champ.Spec.empty⟩ := by
    have := local_moved hA hl x
    rw [hk] at this
    exact this
  refine aout_bind (aout_mono (ownerFor_out .transient) (fun _ _ h => h) ?_) ?_
  · rintro w2 ⟨hq, hgc⟩
    refine ⟨⟨⟨G.set i ⟨{ g.obj with ch := x }, emptyNode, 0, false⟩, ?_, ?_, ?_⟩, ?_⟩, fun hn => hq.fault (hf1 hn)⟩
    · rw [hq.objs]
      show w1.objs.modify i _ = _
      rw [h3, modify_set hgo, h.objs, List.map_set]
    · unfold Spec.on
      rw [hs]
      simp only
      rw [if_pos (.inr (by rw [hk]; rfl))]
      exact f2_set h.loc i hly
    · rw [hq.mem, hq.next]
      show Sound E em w1.st.mem w1.next _
      rw [h4]
      have hp := hy.perm (move_perm hg _).1
      refine (Sound.remove hp ?_).perm ((at_perm hg).2 _).symm
      have hi := hp.inv.permL (.swap _ _ _)
      obtain ⟨cl, _, hc, _⟩ := hi.look List.mem_cons_self
      have := hi.drop hc (fun hf => by rw [show (sys E _).gc = E.gc from rfl, hgc] at hf; cases hf)
      rw [if_pos (show (sys E _).gc = true from hgc)] at this
      exact this
    · rw [hq.mem]
      exact h.keeps_all h2
  · rintro w2 t ⟨k1, k2, k3, k4, k5⟩
    have h5 := hy.moveOwn hg (o := ⟨.transient, g.obj.ch, t⟩) (b := E.gc) (next' := w2.next) rfl (by rw [h4] at k3; exact k3) (fun hb => ⟨hb, by rw [h4] at k4; exact k4 rfl⟩)
    refine ⟨⟨_, ?_, ?_, (by show Sound E em w2.st.mem w2.next _; rw [k1]; exact h5)⟩, by rw [show w2.st.mem = w1.st.mem from k1]; exact h.keeps_all h2⟩
    · show w2.objs ++ _ = _
      rw [k2]
      show w1.objs.modify i _ ++ _ = _
      rw [h3, modify_set hgo, h.objs, List.map_append, List.map_set]; rfl
    · exact f2_push (f2_set h.loc i hly) ⟨rfl, by simp, hl.2.2⟩

theorem persistentMove_out (hA : A.Lawful) (h : RelG E em w G M) :
    AOut (step A E em (.persistentMove i : Cmd K T P) w) (fun w' _ => Post E em w none (Spec.step A E.gc M (.persistentMove i : Cmd K T P)) w') (fun _ => False) := by
  rw [step, Spec.step]
  refine withObj_out (Q := fun M' w' => Post E em w none M' w') h ⟨⟨G, h⟩, h.keeps_refl⟩ ?_
  intro g s hg hs hl _ hgo
  refine aout_bind (aout_mono (aout_lift (Sound.empty hA h.sound)) (fun _ _ h => h) (fun w' hq => hq.1.elim)) ?_
  rintro w1 x ⟨⟨h1, h2⟩, h3, h4⟩
  rw [bind_setCh]
  have h5 := (h1 { g.obj with ch := x } rfl).moveOwn hg (o := ⟨.value, g.obj.ch, 0⟩) (b := false) (next' := w.next) rfl (Nat.le_refl _) (fun hb => by cases hb)
  refine ⟨⟨_, ?_, ?_, (by show Sound E em w1.st.mem w1.next _; rw [h4]; exact h5)⟩, h.keeps_all h2⟩
  · show w1.objs.modify i _ ++ _ = _
    rw [h3, modify_set hgo, h.objs, List.map_append, List.map_set]; rfl
  · exact f2_push (f2_set h.loc i (local_moved hA hl x)) ⟨rfl, by simp, hl.2.2⟩

theorem moveAssign_out (h : RelG E em w G M) (hw : Spec.Whole M j) :
    AOut (step A E em (.moveAssign i j : Cmd K T P) w) (fun w' _ => Post E em w none (Spec.step A E.gc M (.moveAssign i j : Cmd K T P)) w') (fun _ => False) := by
  rw [step, Spec.step]
  refine withObj_out (Q := fun M' w' => Post E em w none M' w') h ⟨⟨G, h⟩, h.keeps_refl⟩ ?_
  intro g s hg hs hl _ hgo
  rw [hl.1]
  refine withObj_out (Q := fun M' w' => Post E em w none M' w') h ⟨⟨G, h⟩, h.keeps_refl⟩ ?_
  intro g' s' hg' hs' hl' hk hgo'
  rw [bind_setOwner, bind_setCh]
  have hk : s.kd.kd = s'.kd.kd := by simpa using hk
  have hlj : ∀ o : Obj, o.kd = g.obj.kd → Local E.gc (⟨o, g.N, 0, false⟩ : Gh A) ⟨s'.kd.moved E.gc, s.val⟩ := by
    intro o ho
    refine ⟨?_, ?_, hl.2.2⟩
    · show o.kd = _
      rw [ho, hl.1, hk]
      cases s'.kd with
      | value => rfl
      | transient => simp only [Spec.SKd.moved]; split <;> rfl
      | shell => simp only [Spec.SKd.moved]; split <;> rfl
    · cases s'.kd with
      | value => simp [Spec.SKd.moved]
      | transient => simp only [Spec.SKd.moved]; cases E.gc <;> rfl
      | shell => simp only [Spec.SKd.moved]; cases E.gc <;> rfl
  have hobj : ({ kd := g.obj.kd, ch := g'.obj.ch, tok := g'.obj.tok } : Obj) = g'.obj := by
    rw [hl.1, hk, ← hl'.1]
  by_cases hij : i = j
  · subst hij
    rw [hg] at hg'; cases hg'
    rw [hs] at hs'; cases hs'
    have h5 := h.sound.ownerAt hg (o := g.obj) (b := false) (next' := w.next) rfl (Nat.le_refl _) (fun hb => by cases hb)
    refine ⟨⟨_, ?_, ?_, h5⟩, h.keeps_refl⟩
    · show ((w.objs.modify i _).modify i _).modify i _ = _
      rw [modify_set hgo, modify_set (set_get hgo), List.set_set, modify_set (set_get hgo), List.set_set, h.objs, List.map_set]
    · rw [List.set_set]
      exact f2_set h.loc i (hlj g.obj rfl)
  · have hp := h.sound.perm (swap_perm hij hg hg')
    have hjl : ((G.set i g').set j g)[j]? = some g := by
      rw [List.getElem?_set_self]
      rw [List.length_set]; exact getElem?_lt hg'
    have h5 := hp.ownerAt hjl (o := { g'.obj with ch := g.obj.ch }) (b := false) (next' := w.next) rfl (Nat.le_refl _) (fun hb => by cases hb)
    rw [List.set_set] at h5
    refine ⟨⟨_, ?_, ?_, h5⟩, h.keeps_refl⟩
    · show ((w.objs.modify i _).modify i _).modify j _ = _
      rw [modify_set hgo, modify_set (set_get hgo), List.set_set, modify_set (h := g'.obj) (by rw [List.getElem?_set_ne hij]; exact hgo'), h.objs, List.map_set, List.map_set]
      congr 2
    · refine f2_set (f2_set h.loc i hl') j (hlj _ ?_)
      show g'.obj.kd = _
      rw [hl.1, hk, hl'.1]

theorem value_of (h : some Kd.value = none ∨ some Kd.value = some s.kd.kd) : s.kd = .value := by
  cases hkd : s.kd <;> rw [hkd] at h <;> simp [Spec.SKd.kd] at h ⊢

theorem transient_of (h : some Kd.transient = none ∨ some Kd.transient = some s.kd.kd) (hs : M[i]? = some s) (hw : Spec.Whole M i) : s.kd = .transient := by
  have := hw s hs
  cases hkd : s.kd <;> rw [hkd] at h this <;> simp [Spec.SKd.kd] at h this ⊢

theorem destroy_out (h : RelG E em w G M) :
    AOut (step A E em (.destroy i : Cmd K T P) w) (fun w' _ => Post E em w (some i) (Spec.step A E.gc M (.destroy i : Cmd K T P)) w') (fun _ => False) := by
  rw [step]
  have he : Spec.step A E.gc M (.destroy i : Cmd K T P) = Spec.on M i none fun _ => M.eraseIdx i := by
    rw [Spec.step]
    unfold Spec.on
    cases hs : M[i]? with
    | none => exact List.eraseIdx_of_length_le (List.getElem?_eq_none_iff.mp hs)
    | some s => simp
  rw [he]
  refine withObj_out (Q := fun M' w' => Post E em w (some i) M' w') h ⟨⟨G, h⟩, h.keeps_refl⟩ ?_
  intro g s hg hs hl _ hgo
  have hp := h.sound.perm (at_perm hg).1
  have hi := hp.inv.permL (L' := g.ref :: emRef A em :: (G.eraseIdx i).map Gh.ref) (.swap _ _ _)
  refine aout_bind (aout_mono (aout_lift (release_out (r := g.ref) rfl (h.sound.shape (List.mem_of_getElem? hg)) hi)) (fun _ _ h => h) (fun w' hq => hq.1.elim)) ?_
  rintro w1 _ ⟨⟨h1, h2⟩, h3, h4⟩
  refine ⟨⟨G.eraseIdx i, ?_, f2_erase h.loc i, ?_⟩, ?_⟩
  · show w1.objs.eraseIdx i = _
    rw [h3, h.objs, List.eraseIdx_map]
  · show Sound E em w1.st.mem w1.next _
    rw [h4]
    exact Sound.remove hp h1
  · rw [h.objs, roots_some]
    exact (kept_keeps' (L := emRef A em :: (G.eraseIdx i).map Gh.ref) hi (fun r hr => List.mem_cons_of_mem _ hr) h2).mono fun r hr => List.mem_cons_of_mem _ hr

theorem refs_same (hg : G[i]? = some g) {g' : Gh A} (hr : g'.obj.ch.root = g.obj.ch.root) : ((G.set i g').map Gh.ref).map Ref.ptr = (G.map Gh.ref).map Ref.ptr := by
  rw [List.map_map, List.map_map, List.map_set]
  refine set_same ?_
  rw [List.getElem?_map, hg]
  show some g.obj.ch.root = some g'.obj.ch.root
  rw [hr]

theorem sound_t0 (h : Sound E em m next G) (hg : g ∈ G) (hl : Local E.gc g s) (hk : s.kd ≠ .transient ∨ E.gc = false) : g.t = 0 := by
  by_contra hn
  have := (h.tok g hg hn).1
  rw [hl.2.1, Bool.and_eq_true_iff] at this
  rcases hk with hk | hk
  · exact hk (of_decide_eq_true this.2)
  · rw [hk] at this; cases this.1

theorem transient_out (h : RelG E em w G M) :
    AOut (step A E em (.transient i : Cmd K T P) w) (fun w' _ => Post E em w none (Spec.step A E.gc M (.transient i : Cmd K T P)) w') (fun w' => Post E em w none M w' ∧ w.st.fault ≠ none) := by
  rw [step, Spec.step]
  refine withObj_out (Q := fun M' w' => Post E em w none M' w') h ⟨⟨G, h⟩, h.keeps_refl⟩ ?_
  intro g s hg hs hl hk hgo
  have hk := value_of hk
  have hmem := List.mem_of_getElem? hg
  have ht := sound_t0 h.sound hmem hl (.inl (by rw [hk]; exact fun h => by cases h))
  refine aout_bind (aout_mono (ownerFor_out .transient) (fun _ _ h => h) (fun w' ⟨hq, _⟩ => ⟨h.quiet hq, hq.fault⟩)) ?_
  rintro w1 t ⟨h1, h2, h3, h4, h5⟩
  have hs1 : Sound E em w1.st.mem w.next G := by rw [h1]; exact h.sound
  refine aout_bind (aout_mono (aout_lift (hs1.copy hmem ht rfl)) (fun _ _ h => h) (fun w' hq => hq.1.elim)) ?_
  rintro w2 x ⟨⟨rfl, h6, h7, h8⟩, h9, h10⟩
  have h11 := (h6 ⟨.transient, g.obj.ch, t⟩ rfl).owner (o := ⟨.transient, g.obj.ch, t⟩) (b := E.gc) (next' := w2.next) rfl (by rw [h10]; exact h3) (fun ha => ⟨ha, by rw [h10]; exact h4 rfl⟩)
  refine ⟨⟨_, ?_, ?_, h11.push⟩, ?_⟩
  · show w2.objs ++ _ = _
    rw [h9, h2, h.objs, List.map_append]; rfl
  · exact f2_push h.loc ⟨rfl, by simp, hl.2.2⟩
  · rw [h1] at h8
    exact h.keeps_all h8

theorem persistent_out (h : RelG E em w G M) (hw : Spec.Whole M i) :
    AOut (step A E em (.persistent i : Cmd K T P) w) (fun w' _ => Post E em w none (Spec.step A E.gc M (.persistent i : Cmd K T P)) w') (fun w' => Post E em w none M w' ∧ w.st.fault ≠ none) := by
  rw [step, Spec.step]
  refine withObj_out (Q := fun M' w' => Post E em w none M' w') h ⟨⟨G, h⟩, h.keeps_refl⟩ ?_
  intro g s hg hs hl hk hgo
  have hk := transient_of hk hs hw
  refine aout_bind (aout_mono (ownerFor_out .transient) (fun _ _ h => h) (fun w' ⟨hq, _⟩ => ⟨h.quiet hq, hq.fault⟩)) ?_
  rintro w1 t ⟨h1, h2, h3, h4, h5⟩
  rw [bind_setOwner]
  have hs1 : Sound E em w1.st.mem w.next (G.set i ⟨{ g.obj with tok := t }, g.N, 0, false⟩) := by
    rw [h1]; exact h.sound.ownerAt hg rfl (Nat.le_refl _) (fun h => by cases h)
  have hmem := List.mem_of_getElem? (set_get (y := (⟨{ g.obj with tok := t }, g.N, 0, false⟩ : Gh A)) hg)
  refine aout_bind (aout_mono (aout_lift (w := { w1 with objs := w1.objs.modify i fun h => { h with tok := t } }) (hs1.copy hmem rfl rfl)) (fun _ _ h => h) (fun w' hq => hq.1.elim)) ?_
  rintro w3 x ⟨⟨rfl, h6, h7, h8⟩, h9, h10⟩
  simp only at h9 h10
  have h13 := (h6 ⟨.value, g.obj.ch, 0⟩ rfl).push.ownerAt (i := i) (g := ⟨{ g.obj with tok := t }, g.N, 0, false⟩) (o := { g.obj with tok := t }) (b := E.gc) (next' := w3.next) (by
    rw [List.getElem?_append_left (by rw [List.length_set]; exact getElem?_lt hg)]
    exact set_get hg) rfl (by rw [h10]; exact h3) (fun ha => ⟨ha, by rw [h10]; exact h4 rfl⟩)
  rw [List.set_append_left _ _ (by rw [List.length_set]; exact getElem?_lt hg), List.set_set] at h13
  refine ⟨⟨_, ?_, ?_, h13⟩, ?_⟩
  · show w3.objs ++ _ = _
    rw [h9, h2, modify_set hgo, h.objs, List.map_append, List.map_set]; rfl
  · have := f2_set h.loc i (g := ⟨{ g.obj with tok := t }, g.N, 0, E.gc⟩) (s := s) ⟨hl.1, by rw [hk]; simp, hl.2.2⟩
    rw [set_same hs] at this
    exact f2_push this ⟨rfl, by simp, hl.2.2⟩
  · have := kept_keeps (d := A.cfg.maxDepth) hs1.inv h8
    rw [h1] at this
    refine this.mono ?_
    intro r hr
    rw [h.objs, roots_none] at hr
    refine List.mem_cons_of_mem _ ?_
    rw [refs_same hg (g' := ⟨{ g.obj with tok := t }, g.N, 0, false⟩) rfl]; exact hr

/-- the contents of one object given to another -/
theorem Sound.give {R : List (Gh A)} {st : St (Dat A.cfg.W) T} {gi gj : Gh A} (h : Sound E em st.mem next (gi :: R)) (hj : gj ∈ gi :: R) (ht : gj.t = 0) {x y : Ch} (hx : x = gj.obj.ch) (hy : y = gi.obj.ch) :
    Out (x.copy A E st) (fun s1 z => z = x ∧ Out (y.destroy A E s1) (fun s' _ => (∀ o : Obj, o.ch = x → o.tok = gi.obj.tok → Sound E em s'.mem next (⟨o, gj.N, 0, gi.act⟩ :: R)) ∧
      Keeps A.cfg.maxDepth st.mem s'.mem ((R.map Gh.ref).map Ref.ptr)) (fun _ => False)) (fun _ => False) := by
  refine out_mono (h.copy hj ht hx) ?_ (fun _ h => h)
  rintro s1 z ⟨rfl, h1, h2, h3⟩
  refine ⟨rfl, ?_⟩
  subst hy
  have hp : Inv (sys E (toks E.gc next (acts (gi :: R)))) s1.mem [] (gi.ref :: ⟨z.root, .node gj.N, 0, false⟩ :: emRef A em :: R.map Gh.ref) := by
    refine h2.permL ?_
    exact ((List.Perm.swap gi.ref (emRef A em) _).cons _).trans (.swap _ _ _)
  unfold Ch.destroy
  refine out_mono (release_out (r := gi.ref) rfl (h.shape List.mem_cons_self) hp) ?_ (fun _ h => h)
  rintro s2 _ ⟨h4, h5⟩
  refine ⟨?_, ?_⟩
  · intro o ho htok
    refine h.put ho htok h4 (fun h => absurd rfl h) ?_
    rw [hx]; exact h.map gj hj
  · have k1 := (kept_keeps (d := A.cfg.maxDepth) h.inv h3).mono (l := (R.map Gh.ref).map Ref.ptr) (fun r hr => List.mem_cons_of_mem _ (List.mem_cons_of_mem _ hr))
    have k2 := (kept_keeps' (d := A.cfg.maxDepth) (L := ⟨z.root, .node gj.N, 0, false⟩ :: emRef A em :: R.map Gh.ref) hp (fun r hr => List.mem_cons_of_mem _ hr) h5).mono
      (l := (R.map Gh.ref).map Ref.ptr) (fun r hr => List.mem_cons_of_mem _ (List.mem_cons_of_mem _ hr))
    exact k1.trans k2

theorem assign_out (h : RelG E em w G M) (hw : Spec.Whole M j) :
    AOut (step A E em (.assign i j : Cmd K T P) w) (fun w' _ => Post E em w (some i) (Spec.step A E.gc M (.assign i j : Cmd K T P)) w') (fun w' => Post E em w (some i) M w' ∧ w.st.fault ≠ none) := by
  rw [step, Spec.step]
  refine withObj_out (Q := fun M' w' => Post E em w (some i) M' w') h ⟨⟨G, h⟩, h.keeps_refl⟩ ?_
  intro g s hg hs hl _ hgo
  rw [hl.1]
  refine withObj_out (Q := fun M' w' => Post E em w (some i) M' w') h ⟨⟨G, h⟩, h.keeps_refl⟩ ?_
  intro g' s' hg' hs' hl' hk hgo'
  have hk : s.kd.kd = s'.kd.kd := by simpa using hk
  have hkk : g.obj.kd = g'.obj.kd := by rw [hl.1, hk, hl'.1]
  refine aout_bind (aout_mono (ownerFor_out s.kd.kd) (fun _ _ h => h) (fun w' ⟨hq, _⟩ => ⟨h.quiet hq, hq.fault⟩)) ?_
  rintro w1 t' ⟨h1, h2, h3, h4, h5⟩
  rw [bind_setOwner]
  have hgo1 : w1.objs[j]? = some g'.obj := by rw [h2]; exact hgo'
  have hact : ∀ b : Bool, b = g'.act → b = true → E.gc = true ∧ w.next ≤ t' ∧ t' < w1.next := by
    rintro b rfl hb
    have := local_act hl' hb
    exact ⟨this.1, h4 (by rw [hk, ← hl'.1]; exact this.2)⟩
  -- `j` has another owner
  have hj1 := h.sound.ownerAt hg' (o := { g'.obj with tok := t' }) (b := g'.act) rfl h3 (fun hb => hact _ rfl hb)
  have hlj1 : List.Forall₂ (Local E.gc) (G.set j ⟨{ g'.obj with tok := t' }, g'.N, 0, g'.act⟩) M := by
    have := f2_set h.loc j (g := ⟨{ g'.obj with tok := t' }, g'.N, 0, g'.act⟩) (s := s') hl'
    rwa [set_same hs'] at this
  refine aout_bind (aout_mono (ownerFor_out s.kd.kd) (fun _ _ h => h) ?_) ?_
  · rintro w2 ⟨hq, _⟩
    refine ⟨⟨⟨_, ?_, hlj1, ?_⟩, ?_⟩, fun hn => hq.fault (h5 hn)⟩
    · rw [hq.objs]
      show w1.objs.modify j _ = _
      rw [modify_set hgo1, h2, h.objs, List.map_set]
    · rw [hq.mem, hq.next]
      show Sound E em w1.st.mem w1.next _
      rw [h1]; exact hj1
    · rw [hq.mem]
      show Keeps _ _ w1.st.mem _
      rw [h1]; exact h.keeps_refl
  rintro w2 t ⟨k1, k2, k3, k4, k5⟩
  simp only at k1 k2 k3 k4
  rw [bind_setOwner]
  have hact2 : g'.act = true → E.gc = true ∧ w1.next ≤ t ∧ t < w2.next := by
    intro hb
    have := local_act hl' hb
    exact ⟨this.1, k4 (by rw [hk, ← hl'.1]; exact this.2)⟩
  have hsa : Sound E em w2.st.mem w.next (G.set j ⟨{ g'.obj with tok := t' }, g'.N, 0, false⟩) := by
    rw [k1, h1]; exact h.sound.ownerAt hg' rfl (Nat.le_refl _) (fun h => by cases h)
  -- what is at `i` then
  obtain ⟨gi, hgi, hgi1⟩ : ∃ gi, (G.set j (⟨{ g'.obj with tok := t' }, g'.N, 0, false⟩ : Gh A))[i]? = some gi ∧ gi.obj.ch = g.obj.ch := by
    by_cases hij : i = j
    · subst hij
      rw [hg] at hg'; cases hg'
      exact ⟨_, set_get hg, rfl⟩
    · exact ⟨g, by rw [List.getElem?_set_ne (Ne.symm hij)]; exact hg, rfl⟩
  obtain ⟨hp1, hp2⟩ := at_perm hgi
  have hgjm : (⟨{ g'.obj with tok := t' }, g'.N, 0, false⟩ : Gh A) ∈ gi :: (G.set j (⟨{ g'.obj with tok := t' }, g'.N, 0, false⟩ : Gh A)).eraseIdx i :=
    hp1.mem_iff.mp (List.mem_of_getElem? (set_get hg'))
  have hgive := (hsa.perm hp1).give hgjm rfl (x := g'.obj.ch) (y := g.obj.ch) rfl hgi1.symm
  refine aout_bind (aout_mono (aout_lift (w := { w2 with objs := w2.objs.modify i fun h => { h with tok := t } }) hgive) (fun _ _ h => h) (fun w' hq => hq.1.elim)) ?_
  rintro w3 x ⟨⟨rfl, h6⟩, h7, h8⟩
  simp only at h7 h8
  rw [bind_setCh]
  refine aout_mono (aout_lift (w := { w3 with objs := w3.objs.modify i fun h => { h with ch := g'.obj.ch } }) h6) ?_ (fun w' hq => hq.1.elim)
  rintro w4 _ ⟨⟨h9, h10⟩, h11, h12⟩
  simp only at h11 h12
  have hb := (h9 { gi.obj with ch := g'.obj.ch } rfl rfl).perm (hp2 _).symm
  have hn2 : w1.next ≤ w4.next := by rw [h12, h8]; exact k3
  have hact4 : g'.act = true → E.gc = true ∧ w1.next ≤ t ∧ t < w4.next := by rw [h12, h8]; exact hact2
  have hobjs2 : w4.objs = (((G.set j ⟨{ g'.obj with tok := t' }, g'.N, 0, g'.act⟩).set i ⟨⟨g'.obj.kd, g'.obj.ch, t⟩, g'.N, 0, g'.act⟩).map Gh.obj) := by
    rw [h11, h7, k2, modify_set hgo1, h2, h.objs]
    by_cases hij : i = j
    · subst hij
      rw [hg] at hg'; cases hg'
      have e1 : (G.map Gh.obj)[i]? = some g.obj := by rw [List.getElem?_map, hg]; rfl
      rw [modify_set (set_get e1), modify_set (set_get (set_get e1)), List.set_set, List.set_set, List.set_set, List.map_set]
    · have e1 : ((G.map Gh.obj).set j { g'.obj with tok := t' })[i]? = some g.obj := by
        rw [List.getElem?_set_ne (Ne.symm hij), List.getElem?_map, hg]; rfl
      rw [modify_set e1, modify_set (set_get e1), List.set_set, List.map_set, List.map_set, ← hkk]
  refine ⟨⟨_, hobjs2, ?_, ?_⟩, ?_⟩
  · refine f2_set hlj1 i (s := s') ?_
    exact hl'
  · by_cases hij : i = j
    · subst hij
      rw [hg] at hg'; cases hg'
      have c1 := hb.ownerAt (set_get hgi) (o := { g.obj with tok := t }) (b := g.act) (next' := w4.next) rfl (Nat.le_trans h3 hn2) (fun ha => by
        have := hact4 ha
        exact ⟨this.1, by have := this.2; simp only; omega⟩)
      rw [List.set_set, List.set_set] at c1
      rw [List.set_set]
      exact c1
    · rw [List.getElem?_set_ne (Ne.symm hij), hg] at hgi
      cases hgi
      have e1 : ((G.set j (⟨{ g'.obj with tok := t' }, g'.N, 0, false⟩ : Gh A)).set i ⟨{ g.obj with ch := g'.obj.ch }, g'.N, 0, g.act⟩)[j]? = some ⟨{ g'.obj with tok := t' }, g'.N, 0, false⟩ := by
        rw [List.getElem?_set_ne hij]; exact set_get hg'
      have c1 := hb.ownerAt e1 (o := { g'.obj with tok := t' }) (b := g'.act) (next' := w1.next) rfl h3 (fun ha => hact _ rfl ha)
      rw [List.set_comm _ _ hij, List.set_set] at c1
      have e2 : ((G.set j (⟨{ g'.obj with tok := t' }, g'.N, 0, g'.act⟩ : Gh A)).set i ⟨{ g.obj with ch := g'.obj.ch }, g'.N, 0, g.act⟩)[i]? = some ⟨{ g.obj with ch := g'.obj.ch }, g'.N, 0, g.act⟩ := by
        rw [List.getElem?_set_self]
        rw [List.length_set]; exact getElem?_lt hg
      have c2 := c1.ownerAt e2 (o := ⟨g'.obj.kd, g'.obj.ch, t⟩) (b := g'.act) (next' := w4.next) rfl hn2 hact4
      rw [List.set_set] at c2
      exact c2
  · rw [k1, h1] at h10
    refine h10.mono ?_
    intro r hr
    rw [h.objs, roots_some, List.map_map] at hr
    rw [List.map_map]
    have he := refs_same hg' (g' := ⟨{ g'.obj with tok := t' }, g'.N, 0, false⟩) rfl
    rw [List.map_map, List.map_map] at he
    rw [← List.eraseIdx_map] at hr ⊢
    rw [he]
    exact hr

/-! #### Operations -/

theorem calm_apply {x : Ch} (o : Op K T P) : Calm (x.apply A E em o) := by
  cases o with
  | insert v =>
    refine calm_bind calm_tickU fun _ => calm_bind (calm_doPut _ _ _ _ _ _ _) fun r => ?_
    cases r with
    | none => exact calm_undef
    | some y => exact calm_ret _
  | update k f =>
    refine calm_bind calm_tickU fun _ => calm_bind (calm_doPut _ _ _ _ _ _ _) fun r => ?_
    cases r with
    | none => exact calm_undef
    | some y => exact calm_ret _
  | updateIfExists k f =>
    refine calm_bind calm_tickU fun _ => calm_bind (calm_doPut _ _ _ _ _ _ _) fun r => ?_
    cases r with
    | none => exact calm_bind (calm_inc _ _) fun _ => calm_ret _
    | some y => exact calm_ret _
  | erase k =>
    refine calm_bind calm_tickU fun _ => calm_bind (calm_doSub _ _ _ _ _ _ _ _) fun r => ?_
    cases r with
    | nothing => exact calm_bind (calm_inc _ _) fun _ => calm_ret _
    | tree q => exact calm_ret _
    | single a b => exact calm_undef

theorem out_fault {D S β : Type} {x : Mm.M D S β} {st : St D S} {Q : St D S → β → Prop} {F : St D S → Prop} (hx : Calm x) (h : Out (x st) Q F) : Out (x st) Q (fun s' => F s' ∧ st.fault ≠ none) := by
  cases hr : x st with
  | ok s' b => rw [hr] at h; exact h
  | thrown s' =>
    rw [hr] at h
    refine ⟨h, fun hf => ?_⟩
    have := hx st
    rw [hr] at this; exact this hf
  | ub => rw [hr] at h; exact h

theorem apply_call (hA : A.Lawful) (hE : E.Fresh) (h : RelG E em w G M) (o : Op K T P) (hb : ¬ Spec.Allowed.Bad A M w.st.fault i o) :
    AOut (withObj i (some .value) (fun h => (lift (h.ch.apply A E em o)).bind fun x => push ⟨.value, x, 0⟩) w)
      (fun w' _ => Post E em w none (Spec.on M i (some .value) fun s => M ++ [⟨.value, Champ.Spec.step A s.val o⟩]) w') (fun w' => Post E em w none M w' ∧ w.st.fault ≠ none) := by
  refine withObj_out (Q := fun M' w' => Post E em w none M' w') h ⟨⟨G, h⟩, h.keeps_refl⟩ ?_
  intro g s hg hs hl hk hgo
  have hk := value_of hk
  have hmem := List.mem_of_getElem? hg
  have ht := sound_t0 h.sound hmem hl (.inl (by rw [hk]; exact fun h => by cases h))
  have hn : NoCopyFault w.st ∨ hits A g.N o = false := by
    by_cases hf : NoCopyFault w.st
    · exact .inl hf
    · refine .inr ?_
      unfold NoCopyFault at hf
      simp only [ne_eq, not_forall, not_not] at hf
      cases hh : hits A g.N o with
      | false => rfl
      | true =>
        refine absurd ⟨hf, s, hs, ?_⟩ hb
        rw [← hl.2.2]
        exact hits_clash hA (h.sound.map g hmem) hh
  refine aout_bind (aout_mono (aout_lift (out_fault (calm_apply o) (apply_out (x := g.obj.ch) (N := g.N) (t := g.t) hA hE o h.sound.inv h.sound.em_mem (List.mem_cons_of_mem _ (List.mem_map_of_mem hmem)) (h.sound.unowned hmem ht) (h.sound.map g hmem) hn)))
    (fun _ _ h => h) ?_) ?_
  · rintro w1 ⟨⟨⟨h1, h2⟩, h3⟩, h4, h5⟩
    refine ⟨⟨⟨G, by rw [h4]; exact h.objs, h.loc, ?_⟩, h.keeps_all h2⟩, h3⟩
    rw [h5]
    exact { h.sound with inv := h1 }
  · rintro w1 x ⟨⟨N', h1, h2, h3, h4⟩, h5, h6⟩
    refine ⟨⟨G ++ [(⟨⟨.value, x, 0⟩, N', 0, false⟩ : Gh A)], ?_, ?_, ?_⟩, h.keeps_all h4⟩
    · show w1.objs ++ _ = _
      rw [h5, h.objs, List.map_append]; rfl
    · refine f2_push h.loc ⟨rfl, by simp, ?_⟩
      rw [h2, hl.2.2]
    · show Sound E em w1.st.mem w1.next _
      rw [h6]
      exact (h.sound.add rfl h3 h1).push

/-- an operation that changes the object -/
theorem mut_call (hA : A.Lawful) (hE : E.Fresh) (h : RelG E em w G M) (o : Op K T P) (hf : w.st.fault = none) (hg : G[i]? = some g) (hs : M[i]? = some s) (hl : Local E.gc g s)
    {e : Nat} (hgo : w.objs[i]? = some g.obj) (he : E.gc = true → s.kd = .transient ∧ e = g.obj.tok) (hk : s.kd = .value ∨ s.kd = .transient) :
    AOut (((lift (g.obj.ch.applyMut A E em e o)).bind fun x => setCh i x) w)
      (fun w' _ => Post E em w (some i) (M.set i ⟨s.kd, Champ.Spec.step A s.val o⟩) w') (fun _ => False) := by
  have hmem := List.mem_of_getElem? hg
  have hp := h.sound.perm (at_perm hg).1
  have hi := hp.inv.permL (L' := g.ref :: emRef A em :: (G.eraseIdx i).map Gh.ref) (.swap _ _ _)
  have hgm : g ∈ g :: G.eraseIdx i := List.mem_cons_self
  -- the token of the root
  obtain ⟨t, hi, ht, ht'⟩ : ∃ t, Inv (sys E (toks E.gc w.next (acts (g :: G.eraseIdx i)))) w.st.mem [] (⟨g.obj.ch.root, .node g.N, t, false⟩ :: emRef A em :: (G.eraseIdx i).map Gh.ref) ∧
      (E.gc = true → t = e) ∧ (t ≠ 0 → g.act = true ∧ t = g.obj.tok) := by
    by_cases hgc : E.gc = true
    · obtain ⟨hk', rfl⟩ := he hgc
      have ha : g.act = true := by rw [hl.2.1, hgc, hk']; rfl
      by_cases h0 : g.t = 0
      · exact ⟨g.obj.tok, inv_retok hi (by show ¬ (toks E.gc w.next _).live g.t; rw [h0]; exact (toks E.gc w.next _).live0) _ rfl, fun _ => rfl, fun _ => ⟨ha, rfl⟩⟩
      · have := hp.tok g hgm h0
        exact ⟨g.t, hi, fun _ => this.2, fun _ => this⟩
    · exact ⟨g.t, hi, fun h => absurd h hgc, hp.tok g hgm⟩
  have hlive : E.gc = true → (toks E.gc w.next (acts (g :: G.eraseIdx i))).live e := by
    intro hgc
    obtain ⟨hk', rfl⟩ := he hgc
    have ha : g.act = true := by rw [hl.2.1, hgc, hk']; rfl
    have := acts_mem hgm ha
    exact ⟨hgc, (hp.lt _ this).1, .inl this⟩
  refine aout_bind (aout_mono (aout_lift (applyMut_calm (x := g.obj.ch) hA hE o hlive ht hi List.mem_cons_self (h.sound.map g hmem) hf)) (fun _ _ h => h) (fun w' hq => hq.1)) ?_
  rintro w1 x ⟨⟨⟨N', h1, h2, h3, h4⟩, _⟩, h5, h6⟩
  have h7 := (hp.put (o := { g.obj with ch := x }) rfl rfl h3 ht' h1).perm ((at_perm hg).2 _).symm
  refine ⟨⟨_, ?_, ?_, (by show Sound E em w1.st.mem w1.next _; rw [h6]; exact h7)⟩, ?_⟩
  · show w1.objs.modify i _ = _
    rw [h5, modify_set hgo, h.objs, List.map_set]
  · refine f2_set h.loc i ⟨hl.1, hl.2.1, ?_⟩
    rw [h2, hl.2.2]
  · rw [h.objs, roots_some]
    exact (kept_keeps' (L := emRef A em :: (G.eraseIdx i).map Gh.ref) hi (fun r hr => List.mem_cons_of_mem _ hr) h4).mono fun r hr => List.mem_cons_of_mem _ hr

theorem applyMut_call (hA : A.Lawful) (hE : E.Fresh) (h : RelG E em w G M) (o : Op K T P) (hf : w.st.fault = none) (hw : Spec.Whole M i) :
    AOut (step A E em (.applyMut i o) w) (fun w' _ => Post E em w (some i) (Spec.step A E.gc M (.applyMut i o)) w') (fun _ => False) := by
  rw [step, Spec.step]
  refine withObj_out (Q := fun M' w' => Post E em w (some i) M' w') h ⟨⟨G, h⟩, h.keeps_refl⟩ ?_
  intro g s hg hs hl hk hgo
  have hk := transient_of hk hs hw
  have := mut_call hA hE h o hf hg hs hl (e := g.obj.tok) hgo (fun _ => ⟨hk, rfl⟩) (.inr hk)
  rw [hk] at this
  exact this

theorem applyMove_call (hA : A.Lawful) (hE : E.Fresh) (h : RelG E em w G M) (o : Op K T P) (hf : if E.gc then ¬ Spec.Allowed.Bad A M w.st.fault i o else w.st.fault = none) :
    AOut (step A E em (.applyMove i o) w) (fun w' _ => Post E em w (Spec.hurt E.gc (.applyMove i o : Cmd K T P)) (Spec.step A E.gc M (.applyMove i o)) w')
      (fun w' => Post E em w (Spec.hurt E.gc (.applyMove i o : Cmd K T P)) M w' ∧ w.st.fault ≠ none) := by
  rw [step, Spec.step, Spec.hurt]
  by_cases hgc : E.gc = true
  · simp only [hgc, if_true] at hf ⊢
    exact apply_call hA hE h o hf
  · simp only [hgc, if_false] at hf ⊢
    refine withObj_out (Q := fun M' w' => Post E em w (some i) M' w') h ⟨⟨G, h⟩, h.keeps_refl⟩ ?_
    intro g s hg hs hl hk hgo
    have hk := value_of hk
    have := mut_call hA hE h o hf hg hs hl (e := 0) hgo (fun h => absurd h hgc) (.inl hk)
    rw [hk] at this
    exact aout_mono this (fun _ _ h => h) (fun _ h => h.elim)

/-- any call -/
theorem step_out (hA : A.Lawful) (hE : E.Fresh) (h : RelG E em w G M) (x : Cmd K T P) (ha : Spec.Allowed A E.gc M w.st.fault x) :
    AOut (step A E em x w) (fun w' _ => Post E em w (Spec.hurt E.gc x) (Spec.step A E.gc M x) w')
      (fun w' => Post E em w (Spec.hurt E.gc x) (Spec.failed M x) w' ∧ w.st.fault ≠ none) := by
  cases x with
  | new kd => exact new_out hA h kd
  | ofRange xs => exact aout_mono (ofRange_out hA hE h ha xs) (fun _ _ h => h) (fun _ h => h.elim)
  | copy i => exact copy_out h ha
  | move i => exact aout_mono (moveTo_out hA h) (fun _ _ h => h) (fun _ h => h.elim)
  | assign i j => exact assign_out h ha
  | moveAssign i j => exact aout_mono (moveAssign_out h ha) (fun _ _ h => h) (fun _ h => h.elim)
  | destroy i => exact aout_mono (destroy_out h) (fun _ _ h => h) (fun _ h => h.elim)
  | transient i => exact transient_out h
  | transientMove i => exact transientMove_out hA h
  | persistent i => exact persistent_out h ha
  | persistentMove i => exact aout_mono (persistentMove_out hA h) (fun _ _ h => h) (fun _ h => h.elim)
  | apply i o =>
    rw [step, Spec.step]
    exact apply_call hA hE h o ha
  | applyMove i o => exact applyMove_call hA hE h o ha
  | applyMut i o => exact aout_mono (applyMut_call hA hE h o ha.1 ha.2) (fun _ _ h => h) (fun _ h => h.elim)

theorem call_out (hA : A.Lawful) (hE : E.Fresh) (h : Rel E em w M) (f : Option (Kind × Nat)) (x : Cmd K T P) (ha : Spec.Allowed A E.gc M f x) :
    AOut (call A E em f x w) (fun w' _ => Post E em w (Spec.hurt E.gc x) (Spec.step A E.gc M x) w')
      (fun w' => Post E em w (Spec.hurt E.gc x) (Spec.failed M x) w' ∧ f ≠ none) := by
  obtain ⟨G, h⟩ := h
  exact step_out (w := { w with st := { w.st with fault := f } }) hA hE (h.eq rfl rfl rfl) x ha

theorem start_rel (hA : A.Lawful) : Rel E em (start A em) ([] : List (Spec.SObj K T)) := by
  refine ⟨[], rfl, .nil, ?_, ?_, ?_, ?_, ?_, ?_, ?_⟩
  · refine ⟨[em], [], fun _ => .node emptyNode, fun _ => rfl, ?_⟩
    have hme : ∀ p cl, (start A em).st.mem p = some cl → p = em ∧ cl = ⟨1, 0, [], .inner ⟨0, 0, none, []⟩⟩ := by
      intro p cl hc
      by_cases hp : p = em
      · subst hp
        have : (start A p).st.mem p = some ⟨1, 0, [], .inner ⟨0, 0, none, []⟩⟩ := by simp [start, upd]
        rw [this] at hc; cases hc
        exact ⟨rfl, rfl⟩
      · have : (start A em).st.mem p = none := by simp [start, upd, hp]
        rw [this] at hc; cases hc
    have htot : ∀ p, total (sys E (toks E.gc (start A em).next (acts ([] : List (Gh A))))) (start A em).st.mem [em] (emRef A em :: List.map Gh.ref []) p = if em = p then 1 else 0 := by
      intro p
      unfold total allRefs outsAt
      rw [show (start A em).st.mem = upd (fun _ => none) em (some ⟨1, 0, [], .inner ⟨0, 0, none, []⟩⟩) from rfl]
      simp only [List.flatMap_cons, upd_self, List.flatMap_nil]
      show List.count p [em] = _
      rw [List.count_cons]
      simp
    exact {
      nodup := by simp
      alloc := by
        intro p
        by_cases hp : p = em
        · subst hp
          have : (start A p).st.mem p = some ⟨1, 0, [], .inner ⟨0, 0, none, []⟩⟩ := by simp [start, upd]
          rw [this]; simp
        · have : (start A em).st.mem p = none := by simp [start, upd, hp]
          rw [this]; simp [hp]
      ok := by
        intro a _ cl hc
        obtain ⟨rfl, rfl⟩ := hme a cl hc
        exact ⟨rfl, [], [], rfl, by simp [OkInner, popcount_zero]; rfl⟩
      refs := by
        intro p hp
        rw [htot, if_neg (fun h => hp (by simp [h]))]
      rc := by
        intro _ a ha cl hc
        obtain ⟨rfl, rfl⟩ := hme a cl hc
        rw [htot, if_pos rfl]
        exact ⟨rfl, Nat.one_pos⟩
      own := by
        intro a ha cl hc _
        rw [htot]; split <;> omega
      tk := fun _ _ _ _ => trivial
      outTok := by
        intro a _ cl hc o ho
        obtain ⟨rfl, rfl⟩ := hme a cl hc
        cases ho
      val := by
        intro r hr
        rw [List.map_nil, List.mem_singleton] at hr
        subst hr; rfl
      refTok := by
        intro r hr cl hc _
        obtain ⟨h1, rfl⟩ := hme _ cl hc
        rw [List.map_nil, List.mem_singleton] at hr
        subst hr; rfl
      uniq := by
        intro r hr hu
        rw [List.map_nil, List.mem_singleton] at hr
        subst hr; cases hu }
  · exact List.nodup_nil
  · intro t ht; cases ht
  · exact Nat.one_pos
  · intro g hg; cases hg
  · intro g hg; cases hg
  · intro g hg; cases hg

/-- any program -/
theorem run_out (hA : A.Lawful) (hE : E.Fresh) : ∀ (xs : List (Option (Kind × Nat) × Cmd K T P)) (w : World A.cfg) (M : List (Spec.SObj K T)), Rel E em w M → Spec.AllAllowed A E.gc M xs →
    ∃ w' fl, run A E em xs w = some (w', fl) ∧ fl.length = xs.length ∧ (∀ p ∈ (xs.map Prod.fst).zip fl, p.2 = true → p.1 ≠ none) ∧
      Rel E em w' (Spec.run A E.gc M ((xs.map Prod.snd).zip fl))
  | [], w, M, h, _ => ⟨w, [], rfl, rfl, (fun p hp => by cases hp), h⟩
  | (f, x) :: xs, w, M, h, ha => by
    obtain ⟨h1, h2, h3⟩ := ha
    have hc := call_out hA hE h f x h1
    rw [run]
    cases hx : call A E em f x w with
    | ok w1 u =>
      rw [hx] at hc
      obtain ⟨w', fl, k1, k2, k3, k4⟩ := run_out hA hE xs w1 _ hc.1 h2
      refine ⟨w', false :: fl, by show Option.map _ (run A E em xs w1) = _; rw [k1]; rfl, by simp [k2], ?_, k4⟩
      intro p hp
      rw [List.map_cons, List.zip_cons_cons] at hp
      rcases List.mem_cons.mp hp with rfl | hp
      · exact fun h => by cases h
      · exact k3 p hp
    | thrown w1 =>
      rw [hx] at hc
      obtain ⟨w', fl, k1, k2, k3, k4⟩ := run_out hA hE xs w1 _ hc.1.1 (h3 hc.2)
      refine ⟨w', true :: fl, by show Option.map _ (run A E em xs w1) = _; rw [k1]; rfl, by simp [k2], ?_, k4⟩
      intro p hp
      rw [List.map_cons, List.zip_cons_cons] at hp
      rcases List.mem_cons.mp hp with rfl | hp
      · exact fun _ => hc.2
      · exact k3 p hp
    | ub => rw [hx] at hc; exact hc.elim

end
end ChampHeap
