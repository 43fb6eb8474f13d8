import Verif.VecHeap.Progs

/-!
# Tokens that are given out again

`Api.lean` takes tokens from a counter, so none is given out twice.  In the code a token is a block of one byte which the collector
may take back, after which the same address can be the token of another transient (gc_transience_policy.hpp 53-56).  Here a
transient may get any token that no object has and no node that can be reached has, whether or not it was in use before.
-/

namespace VecHeap
open Mm Rrb

section
variable {T : Type}

/-- The owner of object `i` has token `e`.  After a call that makes a token (`transient`, `persistent`, copies of transients) it
stands for `make_token_` (gc_transience_policy.hpp 53-56) having returned `e`: such a call gives the token to no node. -/
def World.retoken (w : World T) (i e : Nat) : World T := { w with objs := w.objs.modify i fun o => { o with tok := e } }

/-- `transient() const&` (vector.hpp 340), where `make_token_` returns `e` -/
def transientWith (E : Env Dat T) (i e : Nat) : WM T Unit := withObj i (some .value) fun h =>
  (lift (if E.gc then tick .alloc else M.ret ())).bind fun _ => (lift (h.v.copy E)).bind fun x => push ⟨.transient, x, e⟩

/-- the pointers that static variables and objects have -/
def heads (er et : Nat) (w : World T) : List Nat := er :: et :: w.objs.flatMap fun o => [o.v.root, o.v.tail]

/-- No object has `e`, and no node or size table that can be reached. -/
structure Unused (er et : Nat) (w : World T) (e : Nat) : Prop where
  objs : ∀ o ∈ w.objs, o.tok ≠ e
  nodes : ∀ r ∈ heads er et w, ∀ p, Below w.st.mem r p → ∀ c, w.st.mem p = some c → c.tok ≠ e

/-- a size table -/
def Dat.isTable : Dat → Bool
  | .table _ _ => true
  | _ => false

/-- Some size tables are allocated with `norefs_tag` (node.hpp 283, operations.hpp 1331), so the collector does not look for pointers
in them (gc_heap.hpp 114-123).  It may take back a token if no object has it and no node that can be reached, even if a size table
has it.  (Size tables from `ensure_mutable_relaxed` do keep it; which size tables those are is not modelled.) -/
structure Lost (er et : Nat) (w : World T) (e : Nat) : Prop where
  objs : ∀ o ∈ w.objs, o.tok ≠ e
  nodes : ∀ r ∈ heads er et w, ∀ p, Below w.st.mem r p → ∀ c, w.st.mem p = some c → c.data.isTable = false → c.tok ≠ e

/-- Worlds that allowed calls lead to when a token `e` may be given out again if `F w e`. -/
inductive Recycled (c : Cfg) (K : Kit T) (S : Spec.Ops K.Op T) (Tm : Spec.Terms K.Op) (E : Env Dat T) (er et : Nat) (F : World T → Nat → Prop) : World T → List (Spec.SObj T) → Prop
  | start : Recycled c K S Tm E er et F (start c E er et) []
  | call {w w' : World T} {M : List (Spec.SObj T)} {f : Option (Kind × Nat)} {x : Cmd T K.Op} : Recycled c K S Tm E er et F w M → Spec.Allowed S M x →
      Tm.On E.gc w f x → call c K E er et f x w = .ok w' () → Recycled c K S Tm E er et F w' (Spec.step S E.gc M x)
  | threw {w w' : World T} {M M' : List (Spec.SObj T)} {f : Option (Kind × Nat)} {x : Cmd T K.Op} : Recycled c K S Tm E er et F w M → Spec.Allowed S M x →
      Tm.On E.gc w f x → call c K E er et f x w = .thrown w' → M' ∈ Spec.failed S E.gc M f x → ShowsAll c K Tm w' M' → Recycled c K S Tm E er et F w' M'
  | token {w : World T} {M : List (Spec.SObj T)} {i e : Nat} {o : Obj} : Recycled c K S Tm E er et F w M → w.objs[i]? = some o → 0 < e → e < w.next →
      F w e → Recycled c K S Tm E er et F (w.retoken i e) M

end

section
variable {T : Type} {c : Cfg} {E : Env Dat T} {Good : Tree T → List T → Prop} {er et : Nat} {m : Mem Dat T} {next : Nat} {G R : List (Gh T)} {g : Gh T}

theorem total_filter {S : Sys Dat T (Val T)} (P : Nat → Bool) (A : List Nat) (L : List (Ref (Val T))) (p : Nat) : total S m (A.filter P) L p ≤ total S m A L p := by
  unfold total allRefs
  rw [List.count_append, List.count_append]
  refine Nat.add_le_add_left ?_ _
  induction A with
  | nil => exact Nat.le_refl _
  | cons a A ih =>
    rw [List.filter_cons]
    split
    · simp only [List.flatMap_cons, List.count_append]; omega
    · simp only [List.flatMap_cons, List.count_append]; omega

/-- A token that no node has which can be reached may be taken into use. -/
theorem inv_grow {u u' : Toks E.gc} {e : Nat} {O : List Nat} {L : List (Ref (Val T))} (hg : E.gc = true) (h : Inv (sys c E u) m O L)
    (hf : ∀ p, Reach (sys c E u) m L p → ∀ cl, m p = some cl → cl.tok ≠ e) (hu : ∀ t, u'.live t → u.live t ∨ t = e) : Inv (sys c E u') m O L := by
  classical
  obtain ⟨A, J, v, _, h⟩ := h
  let P : Nat → Bool := fun p => decide (Reach (sys c E u) m L p)
  have hP : ∀ {p}, P p = true ↔ Reach (sys c E u) m L p := by intro p; exact decide_eq_true_iff
  have hA : ∀ {a}, a ∈ A.filter P → a ∈ A ∧ Reach (sys c E u) m L a := fun ha => ⟨(List.mem_filter.mp ha).1, hP.mp (List.mem_filter.mp ha).2⟩
  have hperm : (A ++ (O ++ J)).Perm (A.filter P ++ (O ++ (J ++ A.filter fun x => !P x))) := by
    have h1 := (List.filter_append_perm P A).symm
    refine (h1.append_right _).trans ?_
    rw [List.append_assoc]
    refine List.Perm.append_left _ ?_
    refine List.perm_append_comm.trans ?_
    rw [List.append_assoc]
  have hold : ∀ {a cl}, Reach (sys c E u) m L a → m a = some cl → u'.live cl.tok → u.live cl.tok := fun ha hc hl =>
    (hu _ hl).resolve_right (hf _ ha _ hc)
  refine ⟨A.filter P, J ++ A.filter fun x => !P x, v, fun hgc => ?_, ?_⟩
  · rw [show (sys c E u').gc = E.gc from rfl, hg] at hgc; cases hgc
  exact {
    nodup := hperm.nodup_iff.mp h.nodup
    alloc := fun p => (h.alloc p).trans hperm.mem_iff
    ok := fun a ha => h.ok a (hA ha).1
    refs := by
      intro p hp
      refine Nat.eq_zero_of_not_pos fun hpos => hp ?_
      have hm : p ∈ allRefs (sys c E u) m (A.filter P) L := List.count_pos_iff.mp hpos
      have hr : Reach (sys c E u) m L p := by
        rcases List.mem_append.mp hm with hm | hm
        · obtain ⟨r, hr, rfl⟩ := List.mem_map.mp hm
          exact ⟨r, hr, .here⟩
        · obtain ⟨a, ha, hm⟩ := List.mem_flatMap.mp hm
          obtain ⟨r, hr, ha⟩ := (hA ha).2
          unfold outsAt at hm
          cases hc : m a with
          | none => rw [hc] at hm; cases hm
          | some cl => rw [hc] at hm; exact ⟨r, hr, .next ha hc hm⟩
      exact List.mem_filter.mpr ⟨h.reach hr, hP.mpr hr⟩
    rc := fun hgc => by rw [show (sys c E u').gc = E.gc from rfl, hg] at hgc; cases hgc
    own := fun a ha cl hc hl => Nat.le_trans (total_filter P A L a) (h.own a (hA ha).1 cl hc (hold (hA ha).2 hc hl))
    outTok := by
      intro a ha cl hc o ho cl' hc' hl
      obtain ⟨r, hr, hra⟩ := (hA ha).2
      exact h.outTok a (hA ha).1 cl hc o ho cl' hc' (hold ⟨r, hr, .next hra hc ho⟩ hc' hl)
    val := h.val
    refTok := fun r hr cl hc hl => h.refTok r hr cl hc (hold ⟨r, hr, .here⟩ hc hl)
    uniq := fun r hr hx => Nat.le_trans (total_filter P A L _) (h.uniq r hr hx)
    tk := fun a ha => h.tk a (hA ha).1 }

/-- an owner with a token that is not used -/
theorem Sound.retake {o : Obj} {N : Tree T} {l : List T} (h : Sound c E Good er et m next (⟨o, N, l, 0, false⟩ :: R)) (hg : E.gc = true) (h0 : 0 < o.tok) (hn : o.tok < next)
    (hR : o.tok ∉ acts R) (hf : ∀ r ∈ sRefs T er et ++ (⟨o, N, l, 0, false⟩ :: R).flatMap Gh.refs, ∀ p, Below m r.ptr p → ∀ cl, m p = some cl → cl.tok ≠ o.tok) :
    Sound c E Good er et m next (⟨o, N, l, 0, true⟩ :: R) where
  inv := by
    refine inv_grow (e := o.tok) hg h.inv ?_ ?_
    · rintro p ⟨r, hr, hp⟩
      refine hf r hr p ?_
      clear hf hr
      induction hp with
      | here => exact .here
      | next _ hc ho ih => exact .next ih hc ho
    · rintro t ⟨h1, h2, h3⟩
      rcases h3 with h3 | h3
      · rcases List.mem_cons.mp h3 with rfl | h3
        · exact .inr rfl
        · exact .inl ⟨h1, h2, .inl h3⟩
      · exact .inl ⟨h1, h2, .inr h3⟩
  nodup := List.nodup_cons.mpr ⟨hR, h.nodup⟩
  lt := fun t ht => by
    rcases List.mem_cons.mp ht with rfl | ht
    · exact ⟨h0, hn⟩
    · exact h.lt t ht
  pos := h.pos
  tok := fun g hg' ht => by
    rcases List.mem_cons.mp hg' with rfl | hg'
    · exact absurd rfl ht
    · exact h.tok g (List.mem_cons_of_mem _ hg') ht
  gc := fun _ _ _ => hg
  tree := fun g hg' => by
    rcases List.mem_cons.mp hg' with rfl | hg'
    · exact h.tree ⟨o, N, l, 0, false⟩ List.mem_cons_self
    · exact h.tree g (List.mem_cons_of_mem _ hg')

theorem Unused.head {w : World T} {e : Nat} (hG : ∀ g ∈ G, ∃ o ∈ w.objs, o.v = g.obj.v) (hu : Unused er et w e) {r : Ref (Val T)}
    (hr : r ∈ sRefs T er et ++ G.flatMap Gh.refs) {p : Nat} (hp : Below w.st.mem r.ptr p) {cl : Cell Dat T} (hc : w.st.mem p = some cl) : cl.tok ≠ e := by
  refine hu.nodes r.ptr ?_ p hp cl hc
  unfold heads
  rcases List.mem_append.mp hr with hr | hr
  · rcases List.mem_cons.mp hr with rfl | hr
    · exact List.mem_cons_self
    · rcases List.mem_singleton.mp hr with rfl
      exact List.mem_cons_of_mem _ List.mem_cons_self
  · obtain ⟨g, hg, hr⟩ := List.mem_flatMap.mp hr
    obtain ⟨o, ho, hv⟩ := hG g hg
    refine List.mem_cons_of_mem _ (List.mem_cons_of_mem _ (List.mem_flatMap.mpr ⟨o, ho, ?_⟩))
    unfold Gh.refs VecHeap.refs at hr
    rw [hv]
    simp only [List.mem_cons, List.not_mem_nil, or_false] at hr ⊢
    rcases hr with rfl | rfl
    · exact .inl rfl
    · exact .inr rfl

theorem retoken_rel {w : World T} {M : List (Spec.SObj T)} {i e : Nat} {o : Obj} (h : Rel c E Good er et w M) (hi : w.objs[i]? = some o) (h0 : 0 < e)
    (hn : e < w.next) (hu : Unused er et w e) : Rel c E Good er et (w.retoken i e) M := by
  obtain ⟨G, h⟩ := h
  have hi' := hi
  rw [h.objs, List.getElem?_map] at hi'
  obtain ⟨g, hg, rfl⟩ := Option.map_eq_some_iff.mp hi'
  have hlt : i < G.length := (List.getElem?_eq_some_iff.mp hg).1
  have hs : M[i]? = some (M[i]'(by rw [← h.loc.length_eq]; exact hlt)) := List.getElem?_eq_getElem _
  obtain ⟨g', hg', hl⟩ := f2_get' h.loc hs
  rw [hg] at hg'; cases hg'
  obtain ⟨h1, h2⟩ := at_perm hg
  have ha := (h.sound.perm h1).owner (o := { g.obj with tok := e }) (b := false) (next' := w.next) rfl (Nat.le_refl _) (fun hb => by cases hb)
  have hb : Sound c E Good er et w.st.mem w.next (G.set i ⟨{ g.obj with tok := e }, g.N, g.l, 0, g.act⟩) := by
    cases hact : g.act with
    | false => exact ha.perm (h2 _).symm
    | true =>
      refine (ha.retake (h.sound.gc g (List.mem_of_getElem? hg) hact) h0 hn ?_ ?_).perm (h2 _).symm
      · intro hm
        obtain ⟨g2, hg2, he⟩ := List.mem_map.mp hm
        refine hu.objs g2.obj ?_ he
        rw [h.objs]
        exact List.mem_map_of_mem (h1.mem_iff.mpr (List.mem_cons_of_mem _ (List.mem_filter.mp hg2).1))
      · intro r hr p hp cl hc
        refine hu.head (r := r) ?_ hr hp hc
        intro g2 hg2
        rcases List.mem_cons.mp hg2 with rfl | hg2
        · exact ⟨g.obj, List.mem_of_getElem? hi, rfl⟩
        · exact ⟨g2.obj, by rw [h.objs]; exact List.mem_map_of_mem (h1.mem_iff.mpr (List.mem_cons_of_mem _ hg2)), rfl⟩
  refine ⟨G.set i ⟨{ g.obj with tok := e }, g.N, g.l, 0, g.act⟩, ?_, ?_, hb⟩
  · show w.objs.modify i _ = _
    rw [modify_set hi, h.objs, List.map_set]
  · have := f2_set h.loc i (g := ⟨{ g.obj with tok := e }, g.N, g.l, 0, g.act⟩) (s := M[i]'(by rw [← h.loc.length_eq]; exact hlt)) ⟨hl.1, hl.2.1, hl.2.2⟩
    rw [set_same hs] at this
    exact this

/-- Worlds in which tokens were given out again are as specified. -/
theorem Recycled.rel {K : Kit T} {S : Spec.Ops K.Op T} {Tm : Spec.Terms K.Op} {w : World T} {M : List (Spec.SObj T)} (hA : Laws c E K S Good Tm) (hne : er ≠ et)
    {F : World T → Nat → Prop} (hF : ∀ {w M e}, Rel c E Good er et w M → F w e → Unused er et w e) (h : Recycled c K S Tm E er et F w M) : Rel c E Good er et w M := by
  induction h with
  | start => exact start_rel hne
  | @call w w' M f x _ ha ho hc ih =>
    have := call_out hA ih f x ha ho
    rw [hc] at this
    exact this.1
  | @threw w w' M M' f x _ ha ho hc hM hsh ih =>
    have := call_out hA ih f x ha ho
    rw [hc] at this
    obtain ⟨⟨M1, h1, h2⟩, _⟩ := this
    rw [shows_eq hsh (h2.1.shows hA) ((failed_kinds ha hM).trans (failed_kinds ha h1).symm)]
    exact h2.1
  | token _ hi h0 hn hu ih => exact retoken_rel ih hi h0 hn (hF ih hu)

/-- Making a transient and giving its owner the token `e` is `transient()` with `make_token_` returning `e`; only the counter differs. -/
theorem transient_retoken {K : Kit T} {w w' : World T} {i e : Nat} {o : Obj} (hi : w.objs[i]? = some o) (hk : o.kd = .value)
    (h : step c K E er et (.transient i) w = .ok w' ()) : transientWith E i e w = .ok { w'.retoken w.objs.length e with next := w.next } () := by
  simp only [step, transientWith, withObj, hi, hk, or_true, if_true, ownerFor, newTok, WM.bind] at h ⊢
  cases h1 : lift (if E.gc then tick .alloc else M.ret ()) w with
  | ub => rw [h1] at h; cases h
  | thrown w1 => rw [h1] at h; cases h
  | ok w1 u =>
    rw [h1] at h
    simp only at h ⊢
    have h1' : w1.objs = w.objs ∧ w1.next = w.next := by
      unfold lift at h1
      split at h1 <;> cases h1
      exact ⟨rfl, rfl⟩
    unfold lift at h ⊢
    simp only at h
    cases h2 : o.v.copy E w1.st with
    | ub => rw [h2] at h; cases h
    | thrown s => rw [h2] at h; cases h
    | ok s x =>
      rw [h2] at h
      simp only [push, Ans.ok.injEq, and_true] at h
      subst h
      simp only [push, World.retoken, h1']
      congr
      have hm : ∀ (l : List Obj) (a : Obj) (f : Obj → Obj), (l ++ [a]).modify l.length f = l ++ [f a] := by
        intro l a f
        induction l with
        | nil => rfl
        | cons b l ih => simp only [List.cons_append, List.length_cons, List.modify_succ_cons, ih]
      rw [hm]

/-! ### Vectors have no size tables -/

/-- a node without size tables -/
inductive Plain : Node T → Prop
  | leaf {xs : List T} : Plain (.leaf xs)
  | inner {cs : List (Node T)} : (∀ x ∈ cs, Plain x) → Plain (.inner none cs)

theorem full_plain : ∀ (L : Nat) (n : Node T), Full c L n → Plain n
  | 0, .leaf _, _ => .leaf
  | 0, .inner _ _, h => by simp only [Full] at h
  | _ + 1, .leaf _, h => by simp only [Full] at h
  | _ + 1, .inner (some _) _, h => by simp only [Full] at h
  | L + 1, .inner none _, h => by
    simp only [Full] at h
    exact .inner fun x hx => full_plain L x (h.2 x hx)

theorem reg_plain : ∀ (L : Nat) (n : Node T), Reg c L n → Plain n
  | 0, .leaf _, _ => .leaf
  | 0, .inner _ _, h => by simp only [Reg] at h
  | _ + 1, .leaf _, h => by simp only [Reg] at h
  | _ + 1, .inner (some _) _, h => by simp only [Reg] at h
  | L + 1, .inner none _, h => by
    simp only [Reg] at h
    obtain ⟨_, ds, e, rfl, h1, h2⟩ := h
    refine .inner fun x hx => ?_
    rcases List.mem_append.mp hx with hx | hx
    · exact full_plain L x (h1 x hx)
    · rcases List.mem_singleton.mp hx with rfl
      exact reg_plain L x h2

theorem vec_plain {t : Tree T} {l : List T} (h : Vec.Inv c t l) : Plain t.root ∧ Plain t.tail := by
  obtain ⟨pre, tl, _, _, h3, _, h5⟩ := h
  refine ⟨?_, by rw [h3]; exact .leaf⟩
  rcases h5 with ⟨_, h, _⟩ | ⟨L, _, h, _⟩
  · rw [h]; exact .inner fun _ hx => by cases hx
  · exact reg_plain _ _ h

theorem plain_below {u : Toks E.gc} {p : Nat} {N : Node T} (h : Den (sys c E u) m p (.node N)) (hN : Plain N) {q : Nat} (hq : Below m p q) {cl : Cell Dat T}
    (hc : m q = some cl) : cl.data.isTable = false := by
  obtain ⟨v, hv, h⟩ := h
  have key : From (sys c E u) m p q ∧ ∃ N', v q = .node N' ∧ Plain N' := by
    clear hc
    induction hq with
    | here => exact ⟨.here, N, hv, hN⟩
    | @next a o cl _ hc ho ih =>
      obtain ⟨h1, N', h2, h3⟩ := ih
      refine ⟨.next h1 hc ho, ?_⟩
      obtain ⟨cl', hc', hok⟩ := h a h1
      rw [hc] at hc'; cases hc'
      rw [h2] at hok
      have ho' : v o ∈ (outsD cl.data).map v := List.mem_map_of_mem ho
      change okD c E.gc cl.data cl.els ((outsD cl.data).map v) (.node N') at hok
      generalize (outsD cl.data).map v = vs at hok ho'
      cases hd : cl.data with
      | leaf => rw [hd] at ho; cases ho
      | table => rw [hd] at ho; cases ho
      | inner cap r ks =>
        rw [hd] at hok
        obtain ⟨_, _, _, rs, Ns, h4, _, _, rfl⟩ := hok
        cases h4
        cases h3 with
        | inner h3 =>
          simp only [Option.toList_none, List.map_nil, List.nil_append] at ho'
          obtain ⟨x, hx, he⟩ := List.mem_map.mp ho'
          exact ⟨x, he.symm, h3 x hx⟩
  obtain ⟨h1, N', h2, h3⟩ := key
  obtain ⟨cl', hc', hok⟩ := h q h1
  rw [hc] at hc'; cases hc'
  change okD c E.gc cl.data cl.els ((outsD cl.data).map v) (v q) at hok
  rw [h2] at hok
  cases hd : cl.data with
  | leaf => rfl
  | inner => rfl
  | table cap sz =>
    rw [hd] at hok
    have := hok.2.2.2.2
    cases this

/-- The collector takes back no token of a vector's nodes. -/
theorem lost_unused {w : World T} {M : List (Spec.SObj T)} {e : Nat} (h : Rel c E (Vec.Inv c) er et w M) (hl : Lost er et w e) : Unused er et w e := by
  obtain ⟨G, h⟩ := h
  refine ⟨hl.objs, ?_⟩
  intro r hr p hp cl hc
  refine hl.nodes r hr p hp cl hc ?_
  unfold heads at hr
  have hst := statics_mem (T := T) (er := er) (et := et) (L := G.flatMap Gh.refs)
  rcases List.mem_cons.mp hr with rfl | hr
  · exact plain_below (h.sound.inv.den hst.1) (.inner fun _ hx => by cases hx) hp hc
  rcases List.mem_cons.mp hr with rfl | hr
  · exact plain_below (h.sound.inv.den hst.2) .leaf hp hc
  obtain ⟨o, ho, hr⟩ := List.mem_flatMap.mp hr
  rw [h.objs] at ho
  obtain ⟨g, hg, rfl⟩ := List.mem_map.mp ho
  have ht := h.sound.tree g hg
  simp only [List.mem_cons, List.not_mem_nil, or_false] at hr
  rcases hr with rfl | rfl
  · exact plain_below (h.sound.denRoot hg) (vec_plain ht.1).1 hp hc
  · exact plain_below (h.sound.denTail hg) (vec_plain ht.1).2 hp hc

end

end VecHeap
