import Verif.ChampHeap.Props
import Verif.ChampHeap.Examples

/-!
# Maps, sets and tables when the collector gives tokens out again (C57)

As `VecHeap/Tokens.lean`.  All blocks of `hamts/node.hpp` are allocated without `norefs_tag` (242, 263, 329, 340, 372), so the
collector sees the tokens in nodes and in blocks of values.
-/

namespace ChampHeap
open Mm Champ

section
variable {K T P : Type} {A : Api K T P}

/-- The owner of object `i` has token `e`.  After a call that makes a token (`transient`, `persistent`, copies of transients) it
stands for `make_token_` (gc_transience_policy.hpp 53-56) having returned `e`: such a call gives the token to no node. -/
def World.retoken (w : World A.cfg) (i e : Nat) : World A.cfg := { w with objs := w.objs.modify i fun o => { o with tok := e } }

/-- reachable from `r` -/
inductive Linked (m : Mem (Dat A.cfg.W) T) (r : Nat) : Nat → Prop
  | here : Linked m r r
  | next {a o : Nat} {c : Cell (Dat A.cfg.W) T} : Linked m r a → m a = some c → o ∈ outsD c.data → Linked m r o

/-- What the collector may take back: no object has `e`, and no node or block of values that can be reached. -/
structure Unused (em : Nat) (w : World A.cfg) (e : Nat) : Prop where
  objs : ∀ o ∈ w.objs, o.tok ≠ e
  nodes : ∀ r ∈ em :: w.objs.map (fun o => o.ch.root), ∀ p, Linked (A := A) w.st.mem r p → ∀ c, w.st.mem p = some c → c.tok ≠ e

variable (A) in
/-- Worlds that allowed calls lead to when tokens may be given out again. -/
inductive Recycled (E : Env (Dat A.cfg.W) T) (em : Nat) : World A.cfg → List (Spec.SObj K T) → Prop
  | start : Recycled E em (start A em) []
  | call {w w' : World A.cfg} {M : List (Spec.SObj K T)} {f : Option (Kind × Nat)} {x : Cmd K T P} : Recycled E em w M → Spec.Allowed A E.gc M f x →
      call A E em f x w = .ok w' () → Recycled E em w' (Spec.step A E.gc M x)
  | threw {w w' : World A.cfg} {M : List (Spec.SObj K T)} {f : Option (Kind × Nat)} {x : Cmd K T P} : Recycled E em w M → Spec.Allowed A E.gc M f x →
      call A E em f x w = .thrown w' → Recycled E em w' (Spec.failed M x)
  | token {w : World A.cfg} {M : List (Spec.SObj K T)} {i e : Nat} {o : Obj} : Recycled E em w M → w.objs[i]? = some o → 0 < e → e < w.next → Unused em w e →
      Recycled E em (w.retoken i e) M

variable {E : Env (Dat A.cfg.W) T} {em : Nat} {m : Mem (Dat A.cfg.W) T} {next : Nat} {G R : List (Gh A)} {g : Gh A}

theorem total_filter {S : Sys (Dat A.cfg.W) T (Val A.cfg.W T)} (P : Nat → Bool) (B : List Nat) (L : List (Ref (Val A.cfg.W T))) (p : Nat) : total S m (B.filter P) L p ≤ total S m B L p := by
  unfold total allRefs
  rw [List.count_append, List.count_append]
  refine Nat.add_le_add_left ?_ _
  induction B with
  | nil => exact Nat.le_refl _
  | cons a B ih =>
    rw [List.filter_cons]
    split
    · simp only [List.flatMap_cons, List.count_append]; omega
    · simp only [List.flatMap_cons, List.count_append]; omega

/-- A token that no node has which can be reached may be taken into use. -/
theorem inv_grow {u u' : Toks E.gc} {e : Nat} {O : List Nat} {L : List (Ref (Val A.cfg.W T))} (hg : E.gc = true) (h : Inv (sys E u) m O L)
    (hf : ∀ p, Reach (sys E u) m L p → ∀ cl, m p = some cl → cl.tok ≠ e) (hu : ∀ t, u'.live t → u.live t ∨ t = e) : Inv (sys E u') m O L := by
  classical
  obtain ⟨B, J, v, _, h⟩ := h
  let P : Nat → Bool := fun p => decide (Reach (sys E u) m L p)
  have hP : ∀ {p}, P p = true ↔ Reach (sys E u) m L p := by intro p; exact decide_eq_true_iff
  have hB : ∀ {a}, a ∈ B.filter P → a ∈ B ∧ Reach (sys E u) m L a := fun ha => ⟨(List.mem_filter.mp ha).1, hP.mp (List.mem_filter.mp ha).2⟩
  have hperm : (B ++ (O ++ J)).Perm (B.filter P ++ (O ++ (J ++ B.filter fun x => !P x))) := by
    have h1 := (List.filter_append_perm P B).symm
    refine (h1.append_right _).trans ?_
    rw [List.append_assoc]
    refine List.Perm.append_left _ ?_
    refine List.perm_append_comm.trans ?_
    rw [List.append_assoc]
  have hold : ∀ {a cl}, Reach (sys E u) m L a → m a = some cl → u'.live cl.tok → u.live cl.tok := fun ha hc hl =>
    (hu _ hl).resolve_right (hf _ ha _ hc)
  refine ⟨B.filter P, J ++ B.filter fun x => !P x, v, fun hgc => ?_, ?_⟩
  · rw [show (sys E u').gc = E.gc from rfl, hg] at hgc; cases hgc
  exact {
    nodup := hperm.nodup_iff.mp h.nodup
    alloc := fun p => (h.alloc p).trans hperm.mem_iff
    ok := fun a ha => h.ok a (hB ha).1
    refs := by
      intro p hp
      refine Nat.eq_zero_of_not_pos fun hpos => hp ?_
      have hm : p ∈ allRefs (sys E u) m (B.filter P) L := List.count_pos_iff.mp hpos
      have hr : Reach (sys E u) m L p := by
        rcases List.mem_append.mp hm with hm | hm
        · obtain ⟨r, hr, rfl⟩ := List.mem_map.mp hm
          exact ⟨r, hr, .here⟩
        · obtain ⟨a, ha, hm⟩ := List.mem_flatMap.mp hm
          obtain ⟨r, hr, ha⟩ := (hB ha).2
          unfold outsAt at hm
          cases hc : m a with
          | none => rw [hc] at hm; cases hm
          | some cl => rw [hc] at hm; exact ⟨r, hr, .next ha hc hm⟩
      exact List.mem_filter.mpr ⟨h.reach hr, hP.mpr hr⟩
    rc := fun hgc => by rw [show (sys E u').gc = E.gc from rfl, hg] at hgc; cases hgc
    own := fun a ha cl hc hl => Nat.le_trans (total_filter P B L a) (h.own a (hB ha).1 cl hc (hold (hB ha).2 hc hl))
    outTok := by
      intro a ha cl hc o ho cl' hc' hl
      obtain ⟨r, hr, hra⟩ := (hB ha).2
      exact h.outTok a (hB ha).1 cl hc o ho cl' hc' (hold ⟨r, hr, .next hra hc ho⟩ hc' hl)
    val := h.val
    refTok := fun r hr cl hc hl => h.refTok r hr cl hc (hold ⟨r, hr, .here⟩ hc hl)
    uniq := fun r hr hx => Nat.le_trans (total_filter P B L _) (h.uniq r hr hx)
    tk := fun a ha => h.tk a (hB ha).1 }

/-- an owner with a token that is not used -/
theorem Sound.retake {o : Obj} {N : A.cfg.N} (h : Sound E em m next (⟨o, N, 0, false⟩ :: R)) (hg : E.gc = true) (h0 : 0 < o.tok) (hn : o.tok < next)
    (hR : o.tok ∉ acts R) (hf : ∀ r ∈ em :: o.ch.root :: R.map (fun g => g.obj.ch.root), ∀ p, Linked (A := A) m r p → ∀ cl, m p = some cl → cl.tok ≠ o.tok) :
    Sound E em m next (⟨o, N, 0, true⟩ :: R) where
  inv := by
    refine inv_grow (e := o.tok) hg h.inv ?_ ?_
    · rintro p ⟨r, hr, hp⟩
      refine hf r.ptr ?_ p ?_
      · rcases List.mem_cons.mp hr with rfl | hr
        · exact List.mem_cons_self
        rcases List.mem_cons.mp hr with rfl | hr
        · exact List.mem_cons_of_mem _ List.mem_cons_self
        obtain ⟨g, hg', rfl⟩ := List.mem_map.mp hr
        exact List.mem_cons_of_mem _ (List.mem_cons_of_mem _ (List.mem_map.mpr ⟨g, hg', rfl⟩))
      · clear hf hr
        induction hp with
        | here => exact .here
        | next _ hc ho ih => exact .next ih hc ho
    · rintro t ⟨h1, h2, h3⟩
      rcases h3 with h3 | h3
      · rcases List.mem_cons.mp h3 with rfl | h3
        · exact .inr rfl
        · exact .inl ⟨h1, h2, .inl h3⟩
      · exact .inl ⟨h1, h2, .inr h3⟩
  nodup := List.nodup_cons.mpr ⟨hR, h.nodup⟩
  lt := fun t ht => by
    rcases List.mem_cons.mp ht with rfl | ht
    · exact ⟨h0, hn⟩
    · exact h.lt t ht
  pos := h.pos
  tok := fun g hg' ht => by
    rcases List.mem_cons.mp hg' with rfl | hg'
    · exact absurd rfl ht
    · exact h.tok g (List.mem_cons_of_mem _ hg') ht
  gc := fun _ _ _ => hg
  map := fun g hg' => by
    rcases List.mem_cons.mp hg' with rfl | hg'
    · exact h.map ⟨o, N, 0, false⟩ List.mem_cons_self
    · exact h.map g (List.mem_cons_of_mem _ hg')

theorem retoken_rel {w : World A.cfg} {M : List (Spec.SObj K T)} {i e : Nat} {o : Obj} (h : Rel E em w M) (hi : w.objs[i]? = some o) (h0 : 0 < e)
    (hn : e < w.next) (hu : Unused em w e) : Rel E em (w.retoken i e) M := by
  obtain ⟨G, h⟩ := h
  have hi' := hi
  rw [h.objs, List.getElem?_map] at hi'
  obtain ⟨g, hg, rfl⟩ := Option.map_eq_some_iff.mp hi'
  have hlt : i < G.length := (List.getElem?_eq_some_iff.mp hg).1
  have hs : M[i]? = some (M[i]'(by rw [← h.loc.length_eq]; exact hlt)) := List.getElem?_eq_getElem _
  obtain ⟨g', hg', hl⟩ := f2_get' h.loc hs
  rw [hg] at hg'; cases hg'
  obtain ⟨h1, h2⟩ := at_perm hg
  have ha := (h.sound.perm h1).owner (o := { g.obj with tok := e }) (b := false) (next' := w.next) rfl (Nat.le_refl _) (fun hb => by cases hb)
  have hb : Sound E em w.st.mem w.next (G.set i ⟨{ g.obj with tok := e }, g.N, 0, g.act⟩) := by
    cases hact : g.act with
    | false => exact ha.perm (h2 _).symm
    | true =>
      refine (ha.retake (h.sound.gc g (List.mem_of_getElem? hg) hact) h0 hn ?_ ?_).perm (h2 _).symm
      · intro hm
        obtain ⟨g2, hg2, he⟩ := List.mem_map.mp hm
        refine hu.objs g2.obj ?_ he
        rw [h.objs]
        exact List.mem_map_of_mem (h1.mem_iff.mpr (List.mem_cons_of_mem _ (List.mem_filter.mp hg2).1))
      · intro r hr p hp cl hc
        refine hu.nodes r ?_ p hp cl hc
        rcases List.mem_cons.mp hr with rfl | hr
        · exact List.mem_cons_self
        refine List.mem_cons_of_mem _ ?_
        rcases List.mem_cons.mp hr with rfl | hr
        · exact List.mem_map.mpr ⟨g.obj, List.mem_of_getElem? hi, rfl⟩
        obtain ⟨g2, hg2, rfl⟩ := List.mem_map.mp hr
        exact List.mem_map.mpr ⟨g2.obj, by rw [h.objs]; exact List.mem_map_of_mem (h1.mem_iff.mpr (List.mem_cons_of_mem _ hg2)), rfl⟩
  refine ⟨G.set i ⟨{ g.obj with tok := e }, g.N, 0, g.act⟩, ?_, ?_, hb⟩
  · show w.objs.modify i _ = _
    rw [modify_set hi, h.objs, List.map_set]
  · have := f2_set h.loc i (g := ⟨{ g.obj with tok := e }, g.N, 0, g.act⟩) (s := M[i]'(by rw [← h.loc.length_eq]; exact hlt)) ⟨hl.1, hl.2.1, hl.2.2⟩
    rw [set_same hs] at this
    exact this

/-- Worlds in which tokens were given out again are as specified. -/
theorem Recycled.rel {w : World A.cfg} {M : List (Spec.SObj K T)} (hA : A.Lawful) (hE : E.Fresh) (h : Recycled A E em w M) : Rel E em w M := by
  induction h with
  | start => exact start_rel hA
  | @call w w' M f x _ ha hc ih =>
    have := call_out hA hE ih f x ha
    rw [hc] at this
    exact this.1
  | @threw w w' M f x _ ha hc ih =>
    have := call_out hA hE ih f x ha
    rw [hc] at this
    exact this.1.1
  | token _ hi h0 hn hu ih => exact retoken_rel ih hi h0 hn hu

/-- **C57** for maps, sets and tables.  The collector may give the token of a transient out again as soon as no object, no node and
no block of values that can be reached has it.  Then every container has the contents it should have, and allowed calls do nothing
undefined and leave the nodes of the other objects as they are. -/
theorem C57_maps {w : World A.cfg} {M : List (Spec.SObj K T)} (hA : A.Lawful) (hE : E.Fresh) (h : Recycled A E em w M) :
    ShowsAll A w M ∧ ∀ f x, Spec.Allowed A E.gc M f x →
      match call A E em f x w with
      | .ok w' _ => Keeps A.cfg.maxDepth w.st.mem w'.st.mem (rootsBut (Spec.hurt E.gc x) w.objs)
      | .thrown w' => Keeps A.cfg.maxDepth w.st.mem w'.st.mem (rootsBut (Spec.hurt E.gc x) w.objs)
      | .ub => False := by
  have hr := h.rel hA hE
  refine ⟨hr.shows hA, fun f x ha => ?_⟩
  have ho := call_out hA hE hr f x ha
  generalize call A E em f x w = a at ho
  cases a with
  | ok w' u => exact ho.2
  | thrown w' => exact ho.1.2
  | ub => exact ho

end

/-! ### A concrete program -/

namespace Ex

section
variable {K T P : Type} {A : Api K T P} {E : Env (Dat A.cfg.W) T} {em : Nat}

/-- a program in which nothing throws -/
def tryRun (A : Api K T P) (E : Env (Dat A.cfg.W) T) (em : Nat) : World A.cfg → List (Cmd K T P) → Option (World A.cfg)
  | w, [] => some w
  | w, x :: xs => match call A E em none x w with
    | .ok w' _ => tryRun A E em w' xs
    | _ => none

theorem tryRun_recycled : ∀ (xs : List (Cmd K T P)) {w w' : World A.cfg} {M : List (Spec.SObj K T)}, Recycled A E em w M → Spec.AllAllowed A E.gc M (xs.map fun x => (none, x)) →
    tryRun A E em w xs = some w' → Recycled A E em w' (xs.foldl (Spec.step A E.gc) M)
  | [], _, _, _, h, _, hw => by cases hw; exact h
  | x :: xs, w, w', M, h, ha, hw => by
    unfold tryRun at hw
    cases hc : call A E em none x w with
    | thrown => rw [hc] at hw; cases hw
    | ub => rw [hc] at hw; cases hw
    | ok w1 u =>
      rw [hc] at hw
      exact tryRun_recycled xs (.call h ha.1 hc) ha.2.1 hw

/-- a list with the pointers of the static variable and the objects, and with those of its nodes, of which none has `e` -/
def freeB (em : Nat) (w : World A.cfg) (l : List Nat) (e : Nat) : Bool :=
  (w.objs.all fun o => o.tok != e) && (em :: w.objs.map fun o => o.ch.root).all (fun r => l.contains r) && l.all fun p => match w.st.mem p with
    | some c => c.tok != e && (outsD c.data).all fun o => l.contains o
    | none => true

theorem free_unused {w : World A.cfg} {l : List Nat} {e : Nat} (h : freeB em w l e = true) : Unused em w e := by
  obtain ⟨h1, h2⟩ := Bool.and_eq_true_iff.mp h
  obtain ⟨h0, h1⟩ := Bool.and_eq_true_iff.mp h1
  refine ⟨fun o ho => by simpa using List.all_eq_true.mp h0 o ho, fun r hr p hp c hc => ?_⟩
  have key : p ∈ l := by
    clear hc
    induction hp with
    | here => exact List.contains_iff_mem.mp (List.all_eq_true.mp h1 r hr)
    | next _ hc ho ih =>
      have := List.all_eq_true.mp h2 _ ih
      rw [hc] at this
      exact List.contains_iff_mem.mp (List.all_eq_true.mp (Bool.and_eq_true_iff.mp this).2 _ ho)
  have := List.all_eq_true.mp h2 p key
  rw [hc] at this
  simpa using (Bool.and_eq_true_iff.mp this).1

/-- pointers found from `todo` in at most `k` steps -/
def found (m : Mem (Dat A.cfg.W) T) : Nat → List Nat → List Nat → List Nat
  | 0, _, l => l
  | _, [], l => l
  | k + 1, p :: ps, l => if l.contains p then found m k ps l else found m k ((match m p with | some c => outsD c.data | none => []) ++ ps) (p :: l)

end

/-- A transient owns nodes, and goes; there is another one. -/
def past : List (Cmd Nat (Nat × Nat) Nat) := [.ofRange [(1, 10), (2, 20), (5, 50)], .transient 0, .applyMut 1 (.insert (4, 40)), .destroy 1, .transient 0]
def next : List (Cmd Nat (Nat × Nat) Nat) := [.applyMut 1 (.insert (8, 80)), .applyMut 1 (.erase 1)]

noncomputable def pw : World exApi.cfg := (tryRun exApi gcEnv 1 (start exApi 1) past).getD (start exApi 1)
noncomputable def pw' : World exApi.cfg := (tryRun exApi gcEnv 1 (pw.retoken 1 2) next).getD pw
noncomputable def nodesOf (w : World exApi.cfg) : List Nat := found (A := exApi) w.st.mem 200 (1 :: w.objs.map fun o => o.ch.root) []

theorem past_allowed : Spec.AllAllowed exApi true [] ((past ++ next).map fun x => (none, x)) := by
  simp only [past, next, List.cons_append, List.nil_append, List.map_cons, List.map_nil, Spec.AllAllowed, Spec.Allowed, Spec.Whole, Spec.step, Spec.on, ne_eq, not_true_eq_false, false_imp_iff, and_true, true_and]
  simp [Spec.SKd.kd, Spec.Allowed.Bad]

theorem allowed_split : ∀ (xs ys : List (Cmd Nat (Nat × Nat) Nat)) {M : List (Spec.SObj Nat (Nat × Nat))}, Spec.AllAllowed exApi true M ((xs ++ ys).map fun x => (none, x)) →
    Spec.AllAllowed exApi true M (xs.map fun x => (none, x)) ∧ Spec.AllAllowed exApi true (xs.foldl (Spec.step exApi true) M) (ys.map fun x => (none, x))
  | [], _, _, h => ⟨trivial, h⟩
  | _ :: xs, ys, _, h => ⟨⟨h.1, (allowed_split xs ys h.2.1).1, fun hf => absurd rfl hf⟩, (allowed_split xs ys h.2.1).2⟩

theorem past_runs : (tryRun exApi gcEnv 1 (start exApi 1) past).isSome = true ∧ (tryRun exApi gcEnv 1 (pw.retoken 1 2) next).isSome = true := by constructor <;> decide +kernel

theorem some_getD {α : Type} {x : Option α} {d : α} (h : x.isSome = true) : x = some (x.getD d) := by
  cases x with
  | none => cases h
  | some _ => rfl

theorem past_run : tryRun exApi gcEnv 1 (start exApi 1) past = some pw := by unfold pw; rw [← some_getD past_runs.1]

theorem next_run : tryRun exApi gcEnv 1 (pw.retoken 1 2) next = some pw' := by unfold pw'; rw [← some_getD past_runs.2]

/-- The token is that of nodes that are still there, though they cannot be reached. -/
theorem past_unused : freeB 1 pw (nodesOf pw) 2 = true ∧ pw.objs[1]?.isSome = true ∧ decide (2 < pw.next) = true ∧
    ((List.range 60).any fun p => match pw.st.mem p with | some c => c.tok == 2 | none => false) = true := by
  refine ⟨?_, ?_, ?_, ?_⟩ <;> decide +kernel

/-- a case that `C57_maps` is about -/
example : ShowsAll exApi pw' (next.foldl (Spec.step exApi true) (past.foldl (Spec.step exApi true) [])) := by
  obtain ⟨a1, a2⟩ := allowed_split past next past_allowed
  have h1 : Recycled exApi gcEnv 1 pw (past.foldl (Spec.step exApi true) []) := tryRun_recycled past .start a1 past_run
  obtain ⟨o, ho⟩ := Option.isSome_iff_exists.mp past_unused.2.1
  have h2 := h1.token (i := 1) (e := 2) ho (by decide) (of_decide_eq_true past_unused.2.2.1) (free_unused past_unused.1)
  exact (C57_maps exApi_lawful (exEnv_fresh _ _ _) (tryRun_recycled next h2 a2 next_run)).1

/-- what the objects have at some keys then: only the transient has changed -/
example : (List.range 2).map (fun i => [1, 4, 8].map fun k => find exApi i k pw') = [[some (some (1, 10)), some none, some none], [some none, some none, some (some (8, 80))]] := by decide +kernel

end Ex

end ChampHeap
