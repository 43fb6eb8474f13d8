import Verif.VecHeap.Ops2
import Verif.VecHeap.Calm
import Verif.VecHeap.Spec
import Verif.Mem.Lists

/-!
# All objects together (helper lemmas for C25, C27, C39, C42)
-/

namespace VecHeap
open Mm Rrb

/-! ### What the operations of a kind of vector have to do -/

section
variable {T : Type}

/-- element `j` of leaf `p` can be assigned to, which leaves a tree for `l` -/
def Filled (c : Cfg) (E : Env Dat T) (u : Toks E.gc) (Good : Tree T → List T → Prop) (O : List Nat) (L : List (Ref (Val T))) (m : Mem Dat T) (e : Nat) (v : Vc) (m' : Mem Dat T) (l : List T) : Prop :=
  ∃ t, Good t l ∧ Is v t ∧ Inv (sys c E u) m' O (refs v t e ++ L) ∧ Kept (sys c E u) O L m m'

/-- what an operation in place leaves -/
def InPlace (c : Cfg) (E : Env Dat T) (u : Toks E.gc) (Good : Tree T → List T → Prop) (O : List Nat) (L : List (Ref (Val T))) (m : Mem Dat T) (e : Nat) (l' : List T) (left : Option (List T))
    (s' : St Dat T) (r : Vc × Option (Nat × Nat × Fn T)) : Prop :=
  match r.2 with
  | none => ∃ t', Good t' l' ∧ Made c E u O L m t' e s' r.1
  | some (p, j, fn) => ∃ cl x, s'.mem p = some cl ∧ cl.els[j]? = some (.live x) ∧
      Filled c E u Good O L m e r.1 (upd s'.mem p (some { cl with els := cl.els.set j (.live (fn.f x)) })) l' ∧
      (fn.user = true → ∃ l₂, left = some l₂ ∧ Filled c E u Good O L m e r.1 (upd s'.mem p (some { cl with els := cl.els.set j (.live (fn.left x)) })) l₂)

structure Laws (c : Cfg) (E : Env Dat T) (K : Kit T) (S : Spec.Ops K.Op T) (Good : Tree T → List T → Prop) (Tm : Spec.Terms K.Op) : Prop where
  empty : Good (Vec.empty c) []
  size : ∀ {t l}, Good t l → t.size = l.length
  els : ∀ {t l}, Good t l → Rrb.els (levels c t.shift) t.root ++ Rrb.els 0 t.tail = l
  same : ∀ {t t' l l'}, Good t l → Good t' l' → t.root = t'.root → t.tail = t'.tail → l = l'
  drop : ∀ {u : Toks E.gc} {t l v k O L} {s : St Dat T}, Good t l → Is v t → Inv (sys c E u) s.mem O (refs v t k ++ L) →
    Out (K.drop E v s) (fun s' _ => Gone c E u O L s.mem s'.mem) (fun _ => False)
  apply : ∀ {u : Toks E.gc} {t l v O L er et o l'} {s : St Dat T}, Good t l → Is v t → S.run o l = some l' → Tm.ok false s.fault v o → Statics er et (refs v t 0 ++ L) →
    Inv (sys c E u) s.mem O (refs v t 0 ++ L) →
    Out (K.apply E er et v o s) (fun s' v' => ∃ t', Good t' l' ∧ Made c E u O (refs v t 0 ++ L) s.mem t' 0 s' v') (fun s' => Gone c E u O (refs v t 0 ++ L) s.mem s'.mem)
  applyMut : ∀ {u : Toks E.gc} {t l v e O L er et o l'} {s : St Dat T}, (E.gc = true → u.live e) → Good t l → Is v t → S.run o l = some l' → Tm.ok true s.fault v o → Statics er et L →
    Inv (sys c E u) s.mem O (refs v t e ++ L) →
    Out (K.applyMut E er et e v o s) (InPlace c E u Good O L s.mem e l' (S.left o l)) (fun s' => Inv (sys c E u) s'.mem O (refs v t e ++ L) ∧ Kept (sys c E u) O L s.mem s'.mem)
  later : ∀ {f f' : Option (Kind × Nat)}, Later f f' → Tm.okPush f → Tm.okPush f'
  pushMut : ∀ {u : Toks E.gc} {t l v e O L x} {s : St Dat T}, (E.gc = true → u.live e) → Good t l → Is v t → Tm.okPush s.fault → Inv (sys c E u) s.mem O (refs v t e ++ L) →
    Out (K.pushMut E e v x s) (fun s' v' => ∃ t', Good t' (l ++ [x]) ∧ Made c E u O L s.mem t' e s' v') (fun s' => Gone c E u O (refs v t e ++ L) s.mem s'.mem)
  get : ∀ {u : Toks E.gc} {t l v i} {s : St Dat T}, Good t l → Is v t → Tm.can v → (hlt : i < l.length) → Den (sys c E u) s.mem v.root (.node t.root) →
    Den (sys c E u) s.mem v.tail (.node t.tail) → K.get v i s = .ok s l[i]
  calmDrop : ∀ v, Calm (K.drop E v)
  calmApply : ∀ er et v o, Calm (K.apply E er et v o)
  calmMut : ∀ er et e v o, Calm (K.applyMut E er et e v o)
  calmPush : ∀ e v x, Calm (K.pushMut E e v x)

end

/-! ### Nodes that stay -/

section keeps
variable {T : Type}

/-- the nodes of the tree at `r` -/
inductive Below (m : Mem Dat T) (r : Nat) : Nat → Prop
  | here : Below m r r
  | next {a o : Nat} {c : Cell Dat T} : Below m r a → m a = some c → o ∈ outsD c.data → Below m r o

/-- the nodes of the trees at `l` have the same contents and owner after -/
def Keeps (m m' : Mem Dat T) (l : List Nat) : Prop :=
  ∀ r ∈ l, ∀ p, Below m r p → ∃ c c', m p = some c ∧ m' p = some c' ∧ Same c c'

variable {c : Cfg} {m m' m'' : Mem Dat T} {l : List Nat} {r p : Nat}

theorem below_from {E : Env Dat T} {u : Toks E.gc} : Below m r p ↔ From (sys c E u) m r p := by
  constructor
  · intro h
    induction h with
    | here => exact .here
    | next _ hc ho ih => exact .next ih hc ho
  · intro h
    induction h with
    | here => exact .here
    | next _ hc ho ih => exact .next ih hc ho

theorem below_congr (h : ∀ p, Below m r p → ∃ c c', m p = some c ∧ m' p = some c' ∧ Same c c') : Below m' r p ↔ Below m r p := by
  constructor
  · intro hb
    induction hb with
    | here => exact .here
    | next _ hc ho ih =>
      obtain ⟨c1, c2, h1, h2, h3⟩ := h _ ih
      rw [hc] at h2; cases h2
      exact .next ih h1 (by rw [← h3.1]; exact ho)
  · intro hb
    induction hb with
    | here => exact .here
    | next hb' hc ho ih =>
      obtain ⟨c1, c2, h1, h2, h3⟩ := h _ hb'
      rw [hc] at h1; cases h1
      exact .next ih h2 (by rw [h3.1]; exact ho)

theorem Keeps.trans (h : Keeps m m' l) (h' : Keeps m' m'' l) : Keeps m m'' l := by
  intro r hr p hp
  obtain ⟨c, c', h1, h2, h3⟩ := h r hr p hp
  obtain ⟨c1, c2, h4, h5, h6⟩ := h' r hr p ((below_congr (h r hr)).mpr hp)
  rw [h2] at h4; cases h4
  exact ⟨c, c2, h1, h5, h3.trans' h6⟩

theorem Keeps.mono {l' : List Nat} (h : Keeps m m' l') (hl : ∀ r ∈ l, r ∈ l') : Keeps m m' l := fun r hr => h r (hl r hr)

theorem kept_keeps' {E : Env Dat T} {u : Toks E.gc} {O O' : List Nat} {L L' : List (Ref (Val T))} (h : Inv (sys c E u) m O' L') (hL : ∀ r ∈ L, r ∈ L')
    (hk : Kept (sys c E u) O L m m') : Keeps m m' (L.map Ref.ptr) := by
  intro r hr p hp
  obtain ⟨x, hx, rfl⟩ := List.mem_map.mp hr
  have hre : Reach (sys c E u) m L p := ⟨x, hx, below_from.mp hp⟩
  obtain ⟨A, J, g, hJ, h⟩ := h
  obtain ⟨c, hc⟩ := h.live (h.reach (hre.mono hL))
  obtain ⟨c', hc', hs⟩ := hk.1 p hre c hc
  exact ⟨c, c', hc, hc', hs⟩

theorem kept_keeps {E : Env Dat T} {u : Toks E.gc} {O : List Nat} {L : List (Ref (Val T))} (h : Inv (sys c E u) m O L) (hk : Kept (sys c E u) O L m m') :
    Keeps m m' (L.map Ref.ptr) := kept_keeps' h (fun _ h => h) hk

end keeps

/-! ### Tokens -/

section toks
variable {T : Type} {c : Cfg} {E : Env Dat T} {u u' : Toks E.gc} {m : Mem Dat T} {O : List Nat} {L : List (Ref (Val T))} {v : Vc} {N : Tree T} {k : Nat}

theorem inv_shrink (h : Inv (sys c E u) m O L) (hs : ∀ t, u'.live t → u.live t) : Inv (sys c E u') m O L := by
  obtain ⟨A, J, g, hJ, h⟩ := h
  exact ⟨A, J, g, hJ, {
    nodup := h.nodup
    alloc := h.alloc
    ok := h.ok
    refs := h.refs
    rc := h.rc
    own := fun a ha c hc hl => h.own a ha c hc (hs _ hl)
    outTok := fun a ha c hc o ho c' hc' hl => h.outTok a ha c hc o ho c' hc' (hs _ hl)
    tk := h.tk
    val := h.val
    refTok := fun r hr c hc hl => h.refTok r hr c hc (hs _ hl)
    uniq := h.uniq }⟩

theorem inv_retok {r : Ref (Val T)} (h : Inv (sys c E u) m O (r :: L)) (hl : ¬ u.live r.tok) (t : Nat) : Inv (sys c E u) m O (⟨r.ptr, r.val, t, false⟩ :: L) := by
  refine h.weaken ?_ (fun hb => by cases hb)
  intro c hc hlv
  obtain ⟨c', _, hc', _, _, h4, _⟩ := h.look List.mem_cons_self
  rw [hc] at hc'; cases hc'
  exact absurd (h4 hlv ▸ hlv) hl

theorem inv_retoks (h : Inv (sys c E u) m O (refs v N k ++ L)) (hl : ¬ u.live k) (t : Nat) : Inv (sys c E u) m O (refs v N t ++ L) := by
  have h1 := (inv_retok h hl t).permL (.swap _ _ _)
  exact (inv_retok h1 hl t).permL (.swap _ _ _)

/-- under the collector references may be forgotten -/
theorem inv_forget (hgc : E.gc = true) (h : Inv (sys c E u) m O (refs v N k ++ L)) : Inv (sys c E u) m O L := by
  have one : ∀ {r : Ref (Val T)} {L : List (Ref (Val T))}, Inv (sys c E u) m O (r :: L) → Inv (sys c E u) m O L := by
    intro r L h
    obtain ⟨cl, _, hc, _⟩ := h.look List.mem_cons_self
    have := h.drop hc (fun hf => by rw [show (sys c E u).gc = E.gc from rfl, hgc] at hf; cases hf)
    rw [if_pos (show (sys c E u).gc = true from hgc)] at this
    exact this
  exact one (one h)

/-- tokens in use: those of transients, and all those not used yet -/
def toks (gc : Bool) (next : Nat) (l : List Nat) : Toks gc where
  live t := gc = true ∧ 0 < t ∧ (t ∈ l ∨ next ≤ t)
  live0 h := absurd h.2.1 (Nat.lt_irrefl 0)
  liveGc h t hl := by rw [h] at hl; cases hl.1

end toks

/-! ### Objects -/

section
variable {T : Type} {c : Cfg}

/-- an object, what it stands for, the token of its nodes if they may be owned, and whether it is a transient that may own nodes -/
structure Gh (T : Type) where
  obj : Obj
  N : Tree T
  l : List T
  t : Nat
  act : Bool

def Gh.refs (g : Gh T) : List (Ref (Val T)) := VecHeap.refs g.obj.v g.N g.t

def acts (G : List (Gh T)) : List Nat := (G.filter Gh.act).map fun g => g.obj.tok

/-- the references of the static variables -/
def sRefs (T : Type) (er et : Nat) : List (Ref (Val T)) := [⟨er, .node emptyRoot, 0, false⟩, ⟨et, .node emptyTail, 0, false⟩]

structure Sound (c : Cfg) (E : Env Dat T) (Good : Tree T → List T → Prop) (er et : Nat) (m : Mem Dat T) (next : Nat) (G : List (Gh T)) : Prop where
  inv : Inv (sys c E (toks E.gc next (acts G))) m [] (sRefs T er et ++ G.flatMap Gh.refs)
  nodup : (acts G).Nodup
  lt : ∀ t ∈ acts G, 0 < t ∧ t < next
  pos : 0 < next
  tok : ∀ g ∈ G, g.t ≠ 0 → g.act = true ∧ g.t = g.obj.tok
  gc : ∀ g ∈ G, g.act = true → E.gc = true
  tree : ∀ g ∈ G, Good g.N g.l ∧ Is g.obj.v g.N

variable {E : Env Dat T} {Good : Tree T → List T → Prop} {er et : Nat} {m m' : Mem Dat T} {next next' : Nat} {G R : List (Gh T)} {g : Gh T}

theorem acts_perm {G' : List (Gh T)} (h : G.Perm G') : (acts G).Perm (acts G') := (h.filter _).map _

theorem Sound.perm {G' : List (Gh T)} (h : Sound c E Good er et m next G) (hp : G.Perm G') : Sound c E Good er et m next G' where
  inv := (inv_shrink (u' := toks E.gc next (acts G')) h.inv (fun t ⟨h1, h2, h3⟩ => ⟨h1, h2, h3.imp_left (acts_perm hp).mem_iff.mpr⟩)).permL ((hp.flatMap_right _).append_left _)
  nodup := (acts_perm hp).nodup_iff.mp h.nodup
  lt := fun t ht => h.lt t ((acts_perm hp).mem_iff.mpr ht)
  pos := h.pos
  tok := fun g hg => h.tok g (hp.mem_iff.mpr hg)
  gc := fun g hg => h.gc g (hp.mem_iff.mpr hg)
  tree := fun g hg => h.tree g (hp.mem_iff.mpr hg)

theorem acts_cons : acts (g :: R) = if g.act = true then g.obj.tok :: acts R else acts R := by
  unfold acts
  rw [List.filter_cons]
  split <;> rfl

theorem acts_tail {t : Nat} (h : t ∈ acts R) : t ∈ acts (g :: R) := by
  rw [acts_cons]; split
  · exact List.mem_cons_of_mem _ h
  · exact h

theorem acts_mem (hg : g ∈ G) (ha : g.act = true) : g.obj.tok ∈ acts G :=
  List.mem_map.mpr ⟨g, List.mem_filter.mpr ⟨hg, ha⟩, rfl⟩

/-- the references of one object first -/
theorem first_perm {a : List (Ref (Val T))} : (sRefs T er et ++ (g :: R).flatMap Gh.refs ++ a).Perm (g.refs ++ (sRefs T er et ++ R.flatMap Gh.refs ++ a)) := by
  rw [List.flatMap_cons, List.append_assoc, List.append_assoc, List.append_assoc]
  exact (List.perm_append_comm_assoc _ _ _)

theorem Sound.first (h : Sound c E Good er et m next (g :: R)) : Inv (sys c E (toks E.gc next (acts (g :: R)))) m [] (VecHeap.refs g.obj.v g.N g.t ++ (sRefs T er et ++ R.flatMap Gh.refs)) := by
  refine h.inv.permL ?_
  rw [List.flatMap_cons]
  exact List.perm_append_comm_assoc _ _ _

theorem last_perm : (VecHeap.refs g.obj.v g.N g.t ++ (sRefs T er et ++ R.flatMap Gh.refs)).Perm (sRefs T er et ++ (g :: R).flatMap Gh.refs) := by
  rw [List.flatMap_cons]
  exact List.perm_append_comm_assoc _ _ _

theorem Sound.nodup_tail (h : Sound c E Good er et m next (g :: R)) : (acts R).Nodup := by
  have := h.nodup
  rw [acts_cons] at this
  split at this
  · exact (List.nodup_cons.mp this).2
  · exact this

/-- another owner, or none -/
theorem Sound.owner (h : Sound c E Good er et m next (g :: R)) {o : Obj} {b : Bool} (hch : o.v = g.obj.v) (hn : next ≤ next')
    (hb : b = true → E.gc = true ∧ next ≤ o.tok ∧ o.tok < next') : Sound c E Good er et m next' (⟨o, g.N, g.l, 0, b⟩ :: R) := by
  have hlt : ∀ t ∈ acts R, 0 < t ∧ t < next := fun t ht => h.lt t (acts_tail ht)
  have hsub : ∀ t, (toks E.gc next' (acts ((⟨o, g.N, g.l, 0, b⟩ : Gh T) :: R))).live t → (toks E.gc next (acts (g :: R))).live t := by
    rintro t ⟨h1, h2, h3⟩
    refine ⟨h1, h2, ?_⟩
    rcases h3 with h3 | h3
    · rw [acts_cons] at h3
      split at h3
      · rename_i hb'
        rcases List.mem_cons.mp h3 with rfl | h3
        · exact .inr (hb hb').2.1
        · exact .inl (acts_tail h3)
      · exact .inl (acts_tail h3)
    · exact .inr (Nat.le_trans hn h3)
  have hnot : ¬ (toks E.gc next' (acts ((⟨o, g.N, g.l, 0, b⟩ : Gh T) :: R))).live g.t := by
    rintro ⟨h1, h2, h3⟩
    obtain ⟨h4, h5⟩ := h.tok g List.mem_cons_self (by omega)
    have h6 := h.lt _ (acts_mem List.mem_cons_self h4)
    have h7 := h.nodup
    rw [acts_cons, if_pos h4, List.nodup_cons] at h7
    rw [acts_cons] at h3
    rw [h5] at h3
    rcases h3 with h3 | h3
    · split at h3
      · rename_i hb'
        rcases List.mem_cons.mp h3 with h3 | h3
        · have := hb hb'
          have h3 : g.obj.tok = o.tok := h3
          omega
        · exact h7.1 h3
      · exact h7.1 h3
    · omega
  refine ⟨?_, ?_, ?_, ?_, ?_, ?_, ?_⟩
  · have := inv_retoks (inv_shrink h.first hsub) hnot 0
    rw [← hch] at this
    exact this.permL (last_perm (g := ⟨o, g.N, g.l, 0, b⟩))
  · rw [acts_cons]
    split
    · rename_i hb'
      refine List.nodup_cons.mpr ⟨?_, h.nodup_tail⟩
      intro hm
      have hm : o.tok ∈ acts R := hm
      have := hlt _ hm
      have := hb hb'
      omega
    · exact h.nodup_tail
  · intro t ht
    rw [acts_cons] at ht
    split at ht
    · rename_i hb'
      rcases List.mem_cons.mp ht with rfl | ht
      · have := hb hb'
        have := h.pos
        simp only
        omega
      · have := hlt t ht; omega
    · have := hlt t ht; omega
  · have := h.pos; omega
  · intro g' hg' ht
    rcases List.mem_cons.mp hg' with rfl | hg'
    · exact absurd rfl ht
    · exact h.tok g' (List.mem_cons_of_mem _ hg') ht
  · intro g' hg' ha
    rcases List.mem_cons.mp hg' with rfl | hg'
    · exact (hb ha).1
    · exact h.gc g' (List.mem_cons_of_mem _ hg') ha
  · intro g' hg'
    rcases List.mem_cons.mp hg' with rfl | hg'
    · have := h.tree g List.mem_cons_self
      rw [← hch] at this
      exact this
    · exact h.tree g' (List.mem_cons_of_mem _ hg')

theorem Sound.later (h : Sound c E Good er et m next G) (hn : next ≤ next') : Sound c E Good er et m next' G where
  inv := inv_shrink h.inv (fun t ⟨h1, h2, h3⟩ => ⟨h1, h2, h3.imp_right (Nat.le_trans hn)⟩)
  nodup := h.nodup
  lt := fun t ht => by have := h.lt t ht; omega
  pos := by have := h.pos; omega
  tok := h.tok
  gc := h.gc
  tree := h.tree

/-- a new object, which owns nothing -/
theorem Sound.add (h : Sound c E Good er et m next G) {x : Vc} {N : Tree T} {l : List T} {o : Obj} (ho : o.v = x)
    (hi : Inv (sys c E (toks E.gc next (acts G))) m' [] (VecHeap.refs x N 0 ++ (sRefs T er et ++ G.flatMap Gh.refs)))
    (hN : Good N l) (hx : Is x N) : Sound c E Good er et m' next (⟨o, N, l, 0, false⟩ :: G) := by
  subst ho
  have ha : acts ((⟨o, N, l, 0, false⟩ : Gh T) :: G) = acts G := by rw [acts_cons]; rfl
  refine ⟨?_, by rw [ha]; exact h.nodup, by rw [ha]; exact h.lt, h.pos, ?_, ?_, ?_⟩
  · rw [ha]
    exact hi.permL (last_perm (g := ⟨o, N, l, 0, false⟩))
  · intro g' hg' ht
    rcases List.mem_cons.mp hg' with rfl | hg'
    · exact absurd rfl ht
    · exact h.tok g' hg' ht
  · intro g' hg' ht
    rcases List.mem_cons.mp hg' with rfl | hg'
    · cases ht
    · exact h.gc g' hg' ht
  · intro g' hg'
    rcases List.mem_cons.mp hg' with rfl | hg'
    · exact ⟨hN, hx⟩
    · exact h.tree g' hg'

/-- other contents for an object -/
theorem Sound.put (h : Sound c E Good er et m next (g :: R)) {x : Vc} {N : Tree T} {l : List T} {o : Obj} {t : Nat} (ho : o.v = x) (htok : o.tok = g.obj.tok)
    (hi : Inv (sys c E (toks E.gc next (acts (g :: R)))) m' [] (VecHeap.refs x N t ++ (sRefs T er et ++ R.flatMap Gh.refs)))
    (ht : t ≠ 0 → g.act = true ∧ t = g.obj.tok)
    (hN : Good N l) (hx : Is x N) : Sound c E Good er et m' next (⟨o, N, l, t, g.act⟩ :: R) := by
  subst ho
  have ha : acts ((⟨o, N, l, t, g.act⟩ : Gh T) :: R) = acts (g :: R) := by rw [acts_cons, acts_cons, ← htok]
  refine ⟨?_, by rw [ha]; exact h.nodup, by rw [ha]; exact h.lt, h.pos, ?_, ?_, ?_⟩
  · rw [ha]
    exact hi.permL (last_perm (g := ⟨o, N, l, t, g.act⟩))
  · intro g' hg' ht'
    rcases List.mem_cons.mp hg' with rfl | hg'
    · rw [htok]; exact ht ht'
    · exact h.tok g' (List.mem_cons_of_mem _ hg') ht'
  · intro g' hg' ht'
    rcases List.mem_cons.mp hg' with rfl | hg'
    · exact h.gc g List.mem_cons_self ht'
    · exact h.gc g' (List.mem_cons_of_mem _ hg') ht'
  · intro g' hg'
    rcases List.mem_cons.mp hg' with rfl | hg'
    · exact ⟨hN, hx⟩
    · exact h.tree g' (List.mem_cons_of_mem _ hg')

/-- an object less -/
theorem Sound.remove (h : Sound c E Good er et m next (g :: R))
    (hi : Inv (sys c E (toks E.gc next (acts (g :: R)))) m' [] (sRefs T er et ++ R.flatMap Gh.refs)) : Sound c E Good er et m' next R where
  inv := inv_shrink hi (fun t ⟨h1, h2, h3⟩ => ⟨h1, h2, h3.imp_left acts_tail⟩)
  nodup := h.nodup_tail
  lt := fun t ht => h.lt t (acts_tail ht)
  pos := h.pos
  tok := fun g' hg' => h.tok g' (List.mem_cons_of_mem _ hg')
  gc := fun g' hg' => h.gc g' (List.mem_cons_of_mem _ hg')
  tree := fun g' hg' => h.tree g' (List.mem_cons_of_mem _ hg')

theorem Sound.mem (_ : Sound c E Good er et m next G) (hg : g ∈ G) {r : Ref (Val T)} (hr : r ∈ g.refs) : r ∈ sRefs T er et ++ G.flatMap Gh.refs :=
  List.mem_append_right _ (List.mem_flatMap.mpr ⟨g, hg, hr⟩)

theorem Sound.denRoot (h : Sound c E Good er et m next G) (hg : g ∈ G) : Den (sys c E (toks E.gc next (acts G))) m g.obj.v.root (.node g.N.root) :=
  h.inv.den (h.mem hg (r := ⟨g.obj.v.root, .node g.N.root, g.t, false⟩) (by unfold Gh.refs VecHeap.refs; simp))

theorem Sound.denTail (h : Sound c E Good er et m next G) (hg : g ∈ G) : Den (sys c E (toks E.gc next (acts G))) m g.obj.v.tail (.node g.N.tail) :=
  h.inv.den (h.mem hg (r := ⟨g.obj.v.tail, .node g.N.tail, g.t, false⟩) (by unfold Gh.refs VecHeap.refs; simp))

theorem statics_mem {L : List (Ref (Val T))} : Statics er et (sRefs T er et ++ L) := ⟨by unfold sRefs; simp, by unfold sRefs; simp⟩

end
end VecHeap
