import Verif.ChampHeap.Obs
import Verif.Mem.Lists
import Verif.ChampHeap.Spec

/-!
# All objects together (helper lemmas for C22-C24, C27, C37)
-/

namespace ChampHeap
open Mm Champ

/-! ### Nodes that stay -/

section keeps
variable {w : Nat} {T : Type}

/-- the nodes of the trees at `l` have the same contents and owner after -/
def Keeps (d : Nat) (m m' : Mem (Dat w) T) (l : List Nat) : Prop :=
  ∀ r ∈ l, ∀ p ∈ cellsN m d r, ∃ c c', m p = some c ∧ m' p = some c' ∧ Same c c'

variable {m m' m'' : Mem (Dat w) T} {d : Nat} {l : List Nat}

theorem cells_self : ∀ (d r : Nat), r ∈ cellsN m d r
  | 0, r => by simp [cellsN]
  | d + 1, r => by simp [cellsN]

theorem cells_congr : ∀ (d r : Nat), (∀ p ∈ cellsN m d r, ∃ c c', m p = some c ∧ m' p = some c' ∧ Same c c') → cellsN m' d r = cellsN m d r
  | 0, r, _ => rfl
  | d + 1, r, h => by
    obtain ⟨⟨rc, tok, els, dat⟩, ⟨rc', tok', els', dat'⟩, hc, hc', h1, h2, h3⟩ := h r (cells_self _ _)
    simp only at h1
    subst h1
    rw [cellsN, hc] at h
    rw [cellsN, cellsN, hc, hc']
    cases dat' with
    | coll n => rfl
    | vals => rfl
    | inner i =>
      simp only at h ⊢
      congr 2
      have : ∀ o ∈ i.cs, cellsN m' d o = cellsN m d o := by
        intro o ho
        refine cells_congr d o ?_
        intro p hp
        exact h p (List.mem_cons_of_mem _ (List.mem_append_right _ (List.mem_flatMap.mpr ⟨o, ho, hp⟩)))
      exact flatMap_congr' this

theorem Keeps.trans (h : Keeps d m m' l) (h' : Keeps d m' m'' l) : Keeps d m m'' l := by
  intro r hr p hp
  obtain ⟨c, c', h1, h2, h3⟩ := h r hr p hp
  have := cells_congr d r (h r hr)
  obtain ⟨c1, c2, h4, h5, h6⟩ := h' r hr p (by rw [this]; exact hp)
  rw [h2] at h4; cases h4
  exact ⟨c, c2, h1, h5, h3.trans' h6⟩

theorem Keeps.mono {l' : List Nat} (h : Keeps d m m' l') (hl : ∀ r ∈ l, r ∈ l') : Keeps d m m' l := fun r hr => h r (hl r hr)

theorem kept_keeps' {E : Env (Dat w) T} {u : Toks E.gc} {O O' : List Nat} {L L' : List (Ref (Val w T))} (h : Inv (sys E u) m O' L') (hL : ∀ r ∈ L, r ∈ L')
    (hk : Kept (sys E u) O L m m') : Keeps d m m' (L.map Ref.ptr) := by
  intro r hr p hp
  obtain ⟨x, hx, rfl⟩ := List.mem_map.mp hr
  have hre : Reach (sys E u) m L p := ⟨x, hx, cells_from hp⟩
  obtain ⟨A, J, g, hJ, h⟩ := h
  obtain ⟨c, hc⟩ := h.live (h.reach (hre.mono hL))
  obtain ⟨c', hc', hs⟩ := hk.1 p hre c hc
  exact ⟨c, c', hc, hc', hs⟩

theorem kept_keeps {E : Env (Dat w) T} {u : Toks E.gc} {O : List Nat} {L : List (Ref (Val w T))} (h : Inv (sys E u) m O L) (hk : Kept (sys E u) O L m m') :
    Keeps d m m' (L.map Ref.ptr) := kept_keeps' h (fun _ h => h) hk

end keeps

/-! ### Tokens -/

section toks
variable {w : Nat} {T : Type} {E : Env (Dat w) T} {u u' : Toks E.gc} {m : Mem (Dat w) T} {O : List Nat} {L : List (Ref (Val w T))}

theorem inv_shrink (h : Inv (sys E u) m O L) (hs : ∀ t, u'.live t → u.live t) : Inv (sys E u') m O L := by
  obtain ⟨A, J, g, hJ, h⟩ := h
  exact ⟨A, J, g, hJ, {
    nodup := h.nodup
    alloc := h.alloc
    ok := h.ok
    refs := h.refs
    rc := h.rc
    own := fun a ha c hc hl => h.own a ha c hc (hs _ hl)
    outTok := fun a ha c hc o ho c' hc' hl => h.outTok a ha c hc o ho c' hc' (hs _ hl)
    tk := fun _ _ _ _ => trivial
    val := h.val
    refTok := fun r hr c hc hl => h.refTok r hr c hc (hs _ hl)
    uniq := h.uniq }⟩

theorem inv_retok {r : Ref (Val w T)} (h : Inv (sys E u) m O (r :: L)) (hl : ¬ u.live r.tok) (t : Nat) (hu : r.uniq = false) : Inv (sys E u) m O (⟨r.ptr, r.val, t, false⟩ :: L) := by
  refine h.weaken ?_ (fun hb => by cases hb)
  intro c hc hlv
  obtain ⟨c', _, hc', _, _, h4, _⟩ := h.look List.mem_cons_self
  rw [hc] at hc'; cases hc'
  exact absurd (h4 hlv ▸ hlv) hl

/-- tokens in use: those of transients, and all those not used yet -/
def toks (gc : Bool) (next : Nat) (l : List Nat) : Toks gc where
  live t := gc = true ∧ 0 < t ∧ (t ∈ l ∨ next ≤ t)
  live0 h := absurd h.2.1 (Nat.lt_irrefl 0)
  liveGc h t hl := by rw [h] at hl; cases hl.1

end toks

/-! ### Objects -/

section
variable {K T P : Type} {A : Api K T P}

/-- an object, what it stands for, the token of its root if it may be owned, and whether it is a transient that may own nodes -/
structure Gh (A : Api K T P) where
  obj : Obj
  N : A.cfg.N
  t : Nat
  act : Bool

def Gh.ref (g : Gh A) : Ref (Val A.cfg.W T) := ⟨g.obj.ch.root, .node g.N, g.t, false⟩

def acts (G : List (Gh A)) : List Nat := (G.filter Gh.act).map fun g => g.obj.tok

def emRef (A : Api K T P) (em : Nat) : Ref (Val A.cfg.W T) := ⟨em, .node emptyNode, 0, false⟩

structure Sound (E : Env (Dat A.cfg.W) T) (em : Nat) (m : Mem (Dat A.cfg.W) T) (next : Nat) (G : List (Gh A)) : Prop where
  inv : Inv (sys E (toks E.gc next (acts G))) m [] (emRef A em :: G.map Gh.ref)
  nodup : (acts G).Nodup
  lt : ∀ t ∈ acts G, 0 < t ∧ t < next
  pos : 0 < next
  tok : ∀ g ∈ G, g.t ≠ 0 → g.act = true ∧ g.t = g.obj.tok
  gc : ∀ g ∈ G, g.act = true → E.gc = true
  map : ∀ g ∈ G, (⟨g.N, g.obj.ch.size⟩ : Map A.cfg).Inv

variable {E : Env (Dat A.cfg.W) T} {em : Nat} {m m' : Mem (Dat A.cfg.W) T} {next next' : Nat} {G R : List (Gh A)} {g : Gh A}

theorem acts_perm {G' : List (Gh A)} (h : G.Perm G') : (acts G).Perm (acts G') := (h.filter _).map _

theorem Sound.perm {G' : List (Gh A)} (h : Sound E em m next G) (hp : G.Perm G') : Sound E em m next G' where
  inv := (inv_shrink (u' := toks E.gc next (acts G')) h.inv (fun t ⟨h1, h2, h3⟩ => ⟨h1, h2, h3.imp_left (acts_perm hp).mem_iff.mpr⟩)).permL ((hp.map _).cons _)
  nodup := (acts_perm hp).nodup_iff.mp h.nodup
  lt := fun t ht => h.lt t ((acts_perm hp).mem_iff.mpr ht)
  pos := h.pos
  tok := fun g hg => h.tok g (hp.mem_iff.mpr hg)
  gc := fun g hg => h.gc g (hp.mem_iff.mpr hg)
  map := fun g hg => h.map g (hp.mem_iff.mpr hg)

theorem acts_cons : acts (g :: R) = if g.act = true then g.obj.tok :: acts R else acts R := by
  unfold acts
  rw [List.filter_cons]
  split <;> rfl

theorem acts_tail {t : Nat} (h : t ∈ acts R) : t ∈ acts (g :: R) := by
  rw [acts_cons]; split
  · exact List.mem_cons_of_mem _ h
  · exact h

theorem acts_mem (hg : g ∈ G) (ha : g.act = true) : g.obj.tok ∈ acts G :=
  List.mem_map.mpr ⟨g, List.mem_filter.mpr ⟨hg, ha⟩, rfl⟩

theorem Sound.nodup_tail (h : Sound E em m next (g :: R)) : (acts R).Nodup := by
  have := h.nodup
  rw [acts_cons] at this
  split at this
  · exact (List.nodup_cons.mp this).2
  · exact this

/-- another owner, or none -/
theorem Sound.owner (h : Sound E em m next (g :: R)) {o : Obj} {b : Bool} (hch : o.ch = g.obj.ch) (hn : next ≤ next')
    (hb : b = true → E.gc = true ∧ next ≤ o.tok ∧ o.tok < next') : Sound E em m next' (⟨o, g.N, 0, b⟩ :: R) := by
  have hlt : ∀ t ∈ acts R, 0 < t ∧ t < next := fun t ht => h.lt t (acts_tail ht)
  have hsub : ∀ t, (toks E.gc next' (acts ((⟨o, g.N, 0, b⟩ : Gh A) :: R))).live t → (toks E.gc next (acts (g :: R))).live t := by
    rintro t ⟨h1, h2, h3⟩
    refine ⟨h1, h2, ?_⟩
    rcases h3 with h3 | h3
    · rw [acts_cons] at h3
      split at h3
      · rename_i hb'
        rcases List.mem_cons.mp h3 with rfl | h3
        · exact .inr (hb hb').2.1
        · exact .inl (acts_tail h3)
      · exact .inl (acts_tail h3)
    · exact .inr (Nat.le_trans hn h3)
  have hnot : ¬ (toks E.gc next' (acts ((⟨o, g.N, 0, b⟩ : Gh A) :: R))).live g.t := by
    rintro ⟨h1, h2, h3⟩
    obtain ⟨h4, h5⟩ := h.tok g List.mem_cons_self (by omega)
    have h6 := h.lt _ (acts_mem List.mem_cons_self h4)
    have h7 := h.nodup
    rw [acts_cons, if_pos h4, List.nodup_cons] at h7
    rw [acts_cons] at h3
    rw [h5] at h3
    rcases h3 with h3 | h3
    · split at h3
      · rename_i hb'
        rcases List.mem_cons.mp h3 with h3 | h3
        · have := hb hb'
          have h3 : g.obj.tok = o.tok := h3
          omega
        · exact h7.1 h3
      · exact h7.1 h3
    · omega
  refine ⟨?_, ?_, ?_, ?_, ?_, ?_, ?_⟩
  · have := (inv_shrink h.inv hsub).permL (L' := g.ref :: emRef A em :: R.map Gh.ref) (.swap _ _ _)
    have := (inv_retok this hnot 0 rfl).permL (.swap _ _ _)
    unfold Gh.ref at this
    rw [← hch] at this
    exact this
  · rw [acts_cons]
    split
    · rename_i hb'
      refine List.nodup_cons.mpr ⟨?_, h.nodup_tail⟩
      intro hm
      have hm : o.tok ∈ acts R := hm
      have := hlt _ hm
      have := hb hb'
      omega
    · exact h.nodup_tail
  · intro t ht
    rw [acts_cons] at ht
    split at ht
    · rename_i hb'
      rcases List.mem_cons.mp ht with rfl | ht
      · have := hb hb'
        have := h.pos
        simp only
        omega
      · have := hlt t ht; omega
    · have := hlt t ht; omega
  · have := h.pos; omega
  · intro g' hg' ht
    rcases List.mem_cons.mp hg' with rfl | hg'
    · exact absurd rfl ht
    · exact h.tok g' (List.mem_cons_of_mem _ hg') ht
  · intro g' hg' ha
    rcases List.mem_cons.mp hg' with rfl | hg'
    · exact (hb ha).1
    · exact h.gc g' (List.mem_cons_of_mem _ hg') ha
  · intro g' hg'
    rcases List.mem_cons.mp hg' with rfl | hg'
    · have := h.map g List.mem_cons_self
      rw [← hch] at this
      exact this
    · exact h.map g' (List.mem_cons_of_mem _ hg')

theorem Sound.later (h : Sound E em m next G) (hn : next ≤ next') : Sound E em m next' G where
  inv := inv_shrink h.inv (fun t ⟨h1, h2, h3⟩ => ⟨h1, h2, h3.imp_right (Nat.le_trans hn)⟩)
  nodup := h.nodup
  lt := fun t ht => by have := h.lt t ht; omega
  pos := by have := h.pos; omega
  tok := h.tok
  gc := h.gc
  map := h.map

/-- a new object, which owns nothing -/
theorem Sound.add (h : Sound E em m next G) {x : Ch} {N : A.cfg.N} {o : Obj} (ho : o.ch = x)
    (hi : Inv (sys E (toks E.gc next (acts G))) m' [] (⟨x.root, .node N, 0, false⟩ :: emRef A em :: G.map Gh.ref))
    (hN : (⟨N, x.size⟩ : Map A.cfg).Inv) : Sound E em m' next (⟨o, N, 0, false⟩ :: G) := by
  subst ho
  have ha : acts ((⟨o, N, 0, false⟩ : Gh A) :: G) = acts G := by rw [acts_cons]; rfl
  refine ⟨?_, by rw [ha]; exact h.nodup, by rw [ha]; exact h.lt, h.pos, ?_, ?_, ?_⟩
  · rw [ha]
    exact hi.permL (.swap _ _ _)
  · intro g' hg' ht
    rcases List.mem_cons.mp hg' with rfl | hg'
    · exact absurd rfl ht
    · exact h.tok g' hg' ht
  · intro g' hg' ht
    rcases List.mem_cons.mp hg' with rfl | hg'
    · cases ht
    · exact h.gc g' hg' ht
  · intro g' hg'
    rcases List.mem_cons.mp hg' with rfl | hg'
    · exact hN
    · exact h.map g' hg'

/-- other contents for an object -/
theorem Sound.put (h : Sound E em m next (g :: R)) {x : Ch} {N : A.cfg.N} {o : Obj} {t : Nat} (ho : o.ch = x) (htok : o.tok = g.obj.tok)
    (hi : Inv (sys E (toks E.gc next (acts (g :: R)))) m' [] (⟨x.root, .node N, t, false⟩ :: emRef A em :: R.map Gh.ref))
    (ht : t ≠ 0 → g.act = true ∧ t = g.obj.tok)
    (hN : (⟨N, x.size⟩ : Map A.cfg).Inv) : Sound E em m' next (⟨o, N, t, g.act⟩ :: R) := by
  subst ho
  have ha : acts ((⟨o, N, t, g.act⟩ : Gh A) :: R) = acts (g :: R) := by rw [acts_cons, acts_cons, ← htok]
  refine ⟨?_, by rw [ha]; exact h.nodup, by rw [ha]; exact h.lt, h.pos, ?_, ?_, ?_⟩
  · rw [ha]
    exact hi.permL (.swap _ _ _)
  · intro g' hg' ht'
    rcases List.mem_cons.mp hg' with rfl | hg'
    · rw [htok]; exact ht ht'
    · exact h.tok g' (List.mem_cons_of_mem _ hg') ht'
  · intro g' hg' ht'
    rcases List.mem_cons.mp hg' with rfl | hg'
    · exact h.gc g List.mem_cons_self ht'
    · exact h.gc g' (List.mem_cons_of_mem _ hg') ht'
  · intro g' hg'
    rcases List.mem_cons.mp hg' with rfl | hg'
    · exact hN
    · exact h.map g' (List.mem_cons_of_mem _ hg')

/-- an object less -/
theorem Sound.remove (h : Sound E em m next (g :: R))
    (hi : Inv (sys E (toks E.gc next (acts (g :: R)))) m' [] (emRef A em :: R.map Gh.ref)) : Sound E em m' next R where
  inv := inv_shrink hi (fun t ⟨h1, h2, h3⟩ => ⟨h1, h2, h3.imp_left acts_tail⟩)
  nodup := h.nodup_tail
  lt := fun t ht => h.lt t (acts_tail ht)
  pos := h.pos
  tok := fun g' hg' => h.tok g' (List.mem_cons_of_mem _ hg')
  gc := fun g' hg' => h.gc g' (List.mem_cons_of_mem _ hg')
  map := fun g' hg' => h.map g' (List.mem_cons_of_mem _ hg')

theorem Sound.den (h : Sound E em m next G) (hg : g ∈ G) : Den (sys E (toks E.gc next (acts G))) m g.obj.ch.root (.node g.N) :=
  h.inv.den (r := g.ref) (List.mem_cons_of_mem _ (List.mem_map_of_mem hg))

theorem Sound.shape (h : Sound E em m next G) (hg : g ∈ G) : Shape A.cfg.maxDepth g.N := (WF.form (h.map g hg).wf).shape

/-- the root of an object that owns nothing -/
theorem Sound.unowned (h : Sound E em m next G) (hg : g ∈ G) (ht : g.t = 0) : ∀ cl, m g.obj.ch.root = some cl → ¬ (toks E.gc next (acts G)).live cl.tok :=
  (h.inv.at0 (r := g.ref) (List.mem_cons_of_mem _ (List.mem_map_of_mem hg)) (by
    show ¬ (toks E.gc next (acts G)).live g.t
    rw [ht]; exact (toks E.gc next (acts G)).live0)).unowned

/-! ### Clashing keys -/

theorem collHit_two (hc : A.cfg.Lawful) {k : K} {hash : BitVec 64} : ∀ {d shift p : Nat} {N : A.cfg.N}, WF A.cfg d shift p N → 64 ≤ shift + d * A.cfg.B →
    collHit A.cfg k d N hash shift = true → ∃ x ∈ elems A.cfg d N, ∃ y ∈ elems A.cfg d N, A.cfg.eqv (A.cfg.key x) k = true ∧
      A.cfg.eqv (A.cfg.key y) (A.cfg.key x) = false ∧ A.cfg.hash (A.cfg.key y) = A.cfg.hash (A.cfg.key x)
  | 0, shift, p, .collision vs, hw, hs, h => by
    obtain ⟨h1, h2, h3⟩ := hw
    rw [collHit, List.any_eq_true] at h
    obtain ⟨x, hx, hk⟩ := h
    have hh : ∀ y ∈ vs, A.cfg.hash (A.cfg.key y) = A.cfg.hash (A.cfg.key x) := by
      intro y hy
      have a := h2 y hy
      have b := h2 x hx
      rw [hash_mod_ge (by omega)] at a b
      exact BitVec.eq_of_toNat_eq (a.trans b.symm)
    have : ∃ y ∈ vs, A.cfg.eqv (A.cfg.key y) (A.cfg.key x) = false := by
      match vs, h1, h3, hx with
      | a :: b :: l, _, h3, hx =>
        have hab := (List.pairwise_cons.mp h3).1 b (by simp)
        cases hax : A.cfg.eqv (A.cfg.key a) (A.cfg.key x) with
        | false => exact ⟨a, by simp, hax⟩
        | true =>
          refine ⟨b, by simp, ?_⟩
          cases hbx : A.cfg.eqv (A.cfg.key b) (A.cfg.key x) with
          | false => rfl
          | true =>
            have := hc.trans _ _ _ hax (hc.symm _ _ hbx)
            rw [hab] at this; cases this
    obtain ⟨y, hy, hyx⟩ := this
    exact ⟨x, hx, y, hy, hk, hyx, hh y hy⟩
  | 0, _, _, .inner .., hw, _, _ => hw.elim
  | _ + 1, _, _, .collision _, hw, _, _ => hw.elim
  | d + 1, shift, p, .inner nm dm vs cs, hw, hs, h => by
    rw [collHit] at h
    split at h
    · rename_i hn
      cases hch : cs[cnt nm (A.cfg.idx hash shift)]? with
      | none => rw [hch] at h; cases h
      | some ch =>
        rw [hch] at h
        have hsg : sget nm cs (A.cfg.idx hash shift) = some ch := by
          unfold sget; rw [if_pos hn]; exact hch
        obtain ⟨x, hx, y, hy, h1⟩ := collHit_two hc (hw.2.2.2.2 _ ch hsg).1 (by
          rw [Nat.add_mul] at hs; omega) h
        have hm := List.mem_of_getElem? hch
        exact ⟨x, List.mem_append_right _ (List.mem_flatMap.mpr ⟨ch, hm, hx⟩), y, List.mem_append_right _ (List.mem_flatMap.mpr ⟨ch, hm, hy⟩), h1⟩
    · cases h

theorem hits_clash (hA : A.Lawful) {N : A.cfg.N} {n : Nat} (h : (⟨N, n⟩ : Map A.cfg).Inv) {o : Op K T P} (hh : hits A N o = true) :
    Spec.Clash A (look A.cfg (elems A.cfg A.cfg.maxDepth N)) o := by
  have key : ∀ k : K, collHit A.cfg k A.cfg.maxDepth N (A.cfg.hash k) 0 = true → Spec.Clash.Two A (look A.cfg (elems A.cfg A.cfg.maxDepth N)) k := by
    intro k hk
    obtain ⟨x, hx, y, hy, h1, h2, h3⟩ := collHit_two hA.cfg h.wf (by have := maxShift_ge A.cfg hA.cfg.B_pos; omega) hk
    refine ⟨look_isSome_iff.mpr ⟨x, hx, h1⟩, A.cfg.key y, look_isSome_iff.mpr ⟨y, hy, hA.cfg.refl _⟩, ?_, ?_⟩
    · rw [h3]; exact hA.cfg.hash_eq _ _ h1
    · cases hyk : A.cfg.eqv (A.cfg.key y) k with
      | false => rfl
      | true =>
        have := hA.cfg.trans _ _ _ hyk (hA.cfg.symm _ _ h1)
        rw [h2] at this; cases this
  cases o with
  | insert v => exact key _ hh
  | update k f => exact key _ hh
  | updateIfExists k f => exact key _ hh
  | erase k => cases hh

end
end ChampHeap
