import Verif.ChampHeap.ChOps

/-!
# Reading memory

`readN` reads a tree out of memory, without any ghost state.  `cellsN` lists the nodes a tree is made of.
-/

namespace ChampHeap
open Mm Champ

section
variable {w : Nat} {T : Type}

/-- the elements in an array with no holes -/
def readEls : List (Slot T) → Option (List T)
  | [] => some []
  | .live x :: l => (readEls l).map (x :: ·)
  | _ :: _ => none

def readVals (m : Mem (Dat w) T) : Option Nat → Option (List T)
  | none => some []
  | some v => match m v with
    | some ⟨_, _, els, .vals⟩ => readEls els
    | _ => none

def readAll {α : Type} (f : Nat → Option α) : List Nat → Option (List α)
  | [] => some []
  | p :: ps => (f p).bind fun x => (readAll f ps).map (x :: ·)

/-- the tree with `d` levels above the collision nodes, at `p` -/
def readN (m : Mem (Dat w) T) : Nat → Nat → Option (Node w T)
  | 0, p => match m p with
    | some ⟨_, _, els, .coll n⟩ => (readEls els).bind fun xs => if xs.length = n then some (.collision xs) else none
    | _ => none
  | d + 1, p => match m p with
    | some ⟨_, _, _, .inner i⟩ =>
        (readVals m i.vals).bind fun xs => (readAll (readN m d) i.cs).map fun Ns => .inner i.nm i.dm xs Ns
    | _ => none

/-- the nodes and arrays of the tree at `p` -/
def cellsN (m : Mem (Dat w) T) : Nat → Nat → List Nat
  | 0, p => [p]
  | d + 1, p => p :: match m p with
    | some ⟨_, _, _, .inner i⟩ => i.vals.toList ++ i.cs.flatMap (cellsN m d)
    | _ => []

theorem readEls_live : ∀ xs : List T, readEls (xs.map Slot.live) = some xs
  | [] => rfl
  | x :: xs => by rw [List.map_cons, readEls, readEls_live xs]; rfl

variable {E : Env (Dat w) T} {u : Toks E.gc} {m : Mem (Dat w) T}

theorem readAll_map {α β : Type} {f : Nat → Option α} {g : Nat → β} {h : α → β} : ∀ {ps : List Nat} {xs : List α}, ps.map g = xs.map h →
    (∀ p ∈ ps, ∀ x ∈ xs, g p = h x → f p = some x) → readAll f ps = some xs
  | [], [], _, _ => rfl
  | [], _ :: _, hm, _ => by cases hm
  | _ :: _, [], hm, _ => by cases hm
  | p :: ps, x :: xs, hm, hf => by
    rw [List.map_cons, List.map_cons, List.cons.injEq] at hm
    rw [readAll, hf p (by simp) x (by simp) hm.1,
      readAll_map hm.2 (fun q hq y hy => hf q (List.mem_cons_of_mem _ hq) y (List.mem_cons_of_mem _ hy))]
    rfl

/-- an inner node, read -/
theorem den_inner {p : Nat} {nm dm : BitVec w} {xs : List T} {Ns : List (Node w T)} (h : Den (sys E u) m p (.node (.inner nm dm xs Ns))) :
    ∃ cl vo cs, m p = some cl ∧ cl.data = .inner ⟨nm, dm, vo, cs⟩ ∧ xs.length = popcount dm ∧ Ns.length = popcount nm ∧ cs.length = popcount nm ∧
      vo.isSome = !xs.isEmpty ∧ (∀ v ∈ vo, ∃ cv, m v = some cv ∧ cv.data = .vals ∧ cv.els = xs.map .live) ∧
      (∃ g : Nat → Val w T, cs.map g = Ns.map Val.node ∧ ∀ o ∈ cs, Den (sys E u) m o (g o)) := by
  obtain ⟨cl, g, hc, hok, hk⟩ := h.cell
  obtain ⟨vo, cs, hd, he, h1, h2, h3, h4, h5⟩ := okD_inner hok
  have ho : (sys E u).outs cl.data = vo.toList ++ cs := by
    have : (sys E u).outs cl.data = outsD cl.data := rfl
    rw [this, hd]; rfl
  rw [ho] at h5 hk
  refine ⟨cl, vo, cs, hc, hd, h1, h2, h3, h4, ?_, g, ?_, ?_⟩
  · intro v hv
    cases hv
    have hg : g v = .vals xs := by simpa using congrArg List.head? h5
    have := hk v (by simp)
    rw [hg] at this
    obtain ⟨cv, _, hcv, hokv, _⟩ := this.cell
    obtain ⟨h6, h7, _⟩ := okD_vals hokv
    exact ⟨cv, hcv, h6, h7⟩
  · cases vo with
    | none => simpa using h5
    | some v => simpa using congrArg List.tail h5
  · exact fun o ho => hk o (List.mem_append_right _ ho)

theorem den_coll {p : Nat} {xs : List T} (h : Den (sys E u) m p (.node (.collision xs))) :
    ∃ cl, m p = some cl ∧ cl.data = .coll xs.length ∧ cl.els = xs.map .live := by
  obtain ⟨cl, g, hc, hok, hk⟩ := h.cell
  obtain ⟨h1, h2, _⟩ := okD_coll hok
  exact ⟨cl, hc, h1, h2⟩

theorem den_read : ∀ {d p : Nat} {N : Node w T}, Den (sys E u) m p (.node N) → Shape d N → readN m d p = some N
  | 0, p, .collision xs, h, _ => by
    obtain ⟨cl, hc, hd, he⟩ := den_coll h
    obtain ⟨rc, tok, els, dat⟩ := cl
    simp only at hd he
    subst hd he
    rw [readN, hc]
    simp only
    rw [readEls_live]
    simp
  | 0, _, .inner .., _, h => h.elim
  | _ + 1, _, .collision _, _, h => h.elim
  | d + 1, p, .inner nm dm xs Ns, h, hs => by
    obtain ⟨cl, vo, cs, hc, hd, h1, h2, h3, h4, hv, g, hg, hk⟩ := den_inner h
    obtain ⟨rc, tok, els, dat⟩ := cl
    simp only at hd
    subst hd
    rw [readN, hc]
    simp only
    have hvals : readVals m vo = some xs := by
      cases vo with
      | none =>
        have : xs = [] := by simpa using h4
        rw [this]; rfl
      | some v =>
        obtain ⟨⟨rc', tok', els', dat'⟩, hcv, hdv, hev⟩ := hv v rfl
        simp only at hdv hev
        subst hdv hev
        rw [readVals, hcv]
        exact readEls_live xs
    have hkids : readAll (readN m d) cs = some Ns := by
      refine readAll_map hg ?_
      intro q hq N hN he
      have := hk q hq
      rw [he] at this
      exact den_read this (hs N hN)
    rw [hvals, hkids]
    rfl

theorem cells_from : ∀ {d p q : Nat}, q ∈ cellsN m d p → From (sys E u) m p q
  | 0, p, q, h => by
    rw [cellsN, List.mem_singleton] at h
    subst h
    exact .here
  | d + 1, p, q, h => by
    rw [cellsN, List.mem_cons] at h
    rcases h with rfl | h
    · exact .here
    · cases hp : m p with
      | none => rw [hp] at h; cases h
      | some cl =>
        obtain ⟨rc, tok, els, dat⟩ := cl
        rw [hp] at h
        cases dat with
        | coll n => cases h
        | vals => cases h
        | inner i =>
          simp only at h
          rcases List.mem_append.mp h with h | h
          · exact .next .here hp (List.mem_append_left _ h)
          · obtain ⟨o, ho, h⟩ := List.mem_flatMap.mp h
            exact (From.next .here hp (List.mem_append_right _ ho)).trans (cells_from h)

theorem from_head {p q : Nat} {S : Sys (Dat w) T (Val w T)} (h : From S m p q) : q = p ∨ ∃ c o, m p = some c ∧ o ∈ S.outs c.data ∧ From S m o q := by
  induction h with
  | here => exact .inl rfl
  | next h1 hc ho ih =>
    rcases ih with rfl | ⟨c', o', h2, h3, h4⟩
    · exact .inr ⟨_, _, hc, ho, .here⟩
    · exact .inr ⟨c', o', h2, h3, .next h4 hc ho⟩

theorem from_cells : ∀ {d p q : Nat} {N : Node w T}, Den (sys E u) m p (.node N) → Shape d N → From (sys E u) m p q → q ∈ cellsN m d p
  | 0, p, q, .collision xs, h, _, hq => by
    obtain ⟨cl, hc, hd, he⟩ := den_coll h
    rcases (from_head hq) with rfl | ⟨c', o, hc', ho, _⟩
    · rw [cellsN]; simp
    · rw [hc] at hc'; cases hc'
      have : (sys E u).outs cl.data = outsD cl.data := rfl
      rw [this, hd] at ho
      cases ho
  | 0, _, _, .inner .., _, h, _ => h.elim
  | _ + 1, _, _, .collision _, _, h, _ => h.elim
  | d + 1, p, q, .inner nm dm xs Ns, h, hs, hq => by
    obtain ⟨cl, vo, cs, hc, hd, h1, h2, h3, h4, hv, g, hg, hk⟩ := den_inner h
    rw [cellsN]
    rcases (from_head hq) with rfl | ⟨c', o, hc', ho, hq'⟩
    · simp
    · rw [hc] at hc'; cases hc'
      have : (sys E u).outs cl.data = outsD cl.data := rfl
      rw [this, hd] at ho
      obtain ⟨rc, tok, els, dat⟩ := cl
      simp only at hd
      subst hd
      rw [hc]
      apply List.mem_cons_of_mem
      simp only
      rcases List.mem_append.mp ho with ho | ho
      · refine List.mem_append_left _ ?_
        rw [Option.mem_toList] at ho
        obtain ⟨cv, hcv, hdv, _⟩ := hv o ho
        rcases (from_head hq') with rfl | ⟨c'', o'', hc'', ho'', _⟩
        · exact Option.mem_toList.mpr ho
        · rw [hcv] at hc''; cases hc''
          have : (sys E u).outs cv.data = outsD cv.data := rfl
          rw [this, hdv] at ho''
          cases ho''
      · refine List.mem_append_right _ (List.mem_flatMap.mpr ⟨o, ho, ?_⟩)
        have hgo : g o ∈ Ns.map Val.node := by
          rw [← hg]; exact List.mem_map_of_mem ho
        obtain ⟨N, hN, he⟩ := List.mem_map.mp hgo
        have hd' := hk o ho
        rw [← he] at hd'
        exact from_cells hd' (hs N hN) hq'

end

section
variable {K T P : Type} {c : Cfg K T} {E : Env (Dat c.W) T} {u : Toks E.gc}

theorem calm_getAt (k : K) : ∀ d p hash, Calm (getAt c k d p hash)
  | 0, p, hash => by
    rw [getAt]
    refine calm_bind (calm_collCount p) fun n => calm_bind (calm_scan c _ _ _ _) fun o => ?_
    cases o with
    | none => exact calm_ret _
    | some i => exact calm_bind (calm_readEl _ _) fun _ => calm_ret _
  | d + 1, p, hash => by
    rw [getAt]
    refine calm_bind (calm_getI p) fun i => calm_ite (calm_bind (calm_liftO _) fun ch => calm_getAt k d ch _) (calm_ite ?_ (calm_ret _))
    exact calm_bind (calm_liftO _) fun _ => calm_bind (calm_readEl _ _) fun _ => calm_bind (calm_eqM c _ _) fun _ => calm_ite (calm_ret _) (calm_ret _)

/-- lookup reads what it should -/
theorem getAt_out (k : K) : ∀ (d p : Nat) (N : c.N) (hash : BitVec 64) (r : Option T) (s : St (Dat c.W) T), Den (sys E u) s.mem p (.node N) → getLoop c d N hash k = some r →
    Out (getAt c k d p hash s) (fun s' y => y = r ∧ s'.mem = s.mem) (fun s' => s'.mem = s.mem)
  | 0, p, .collision xs, hash, r, s, h, hg => by
    obtain ⟨cl, hc, hd, he⟩ := den_coll h
    rw [getAt, bind_ok (collCount_eq hc hd)]
    refine out_bind (scan_all hc he) ?_
    rintro s1 o ⟨h1, _, rfl⟩
    rw [getLoop, Option.some.injEq] at hg
    cases hf : xs.findIdx? (fun x => c.eqv (c.key x) k) with
    | none =>
      refine ⟨?_, h1⟩
      rw [← hg]
      symm
      rw [List.find?_eq_none]
      rw [List.findIdx?_eq_none_iff] at hf
      intro x hx
      rw [hf x hx]
      simp
    | some i =>
      have hfi := List.findIdx?_eq_some_iff_getElem.mp hf
      obtain ⟨hlt, hp, hbefore⟩ := hfi
      simp only
      rw [bind_ok (readEl_eq (v := xs[i]) (by rw [h1]; exact hc) (by rw [he, List.getElem?_map, List.getElem?_eq_getElem hlt]; rfl))]
      refine ⟨?_, h1⟩
      rw [← hg]
      symm
      rw [List.find?_eq_some_iff_getElem]
      exact ⟨hp, i, hlt, rfl, fun j hj => by simpa using hbefore j hj⟩
  | 0, _, .inner .., _, _, _, _, hg => by cases hg
  | _ + 1, _, .collision _, _, _, _, _, hg => by cases hg
  | d + 1, p, .inner nm dm xs Ns, hash, r, s, h, hg => by
    obtain ⟨cl, vo, cs, hc, hd, h1, h2, h3, h4, hv, g, hgk, hk⟩ := den_inner h
    rw [getAt, bind_ok (getI_eq hc hd)]
    rw [getLoop] at hg
    simp only at hg ⊢
    split
    · rename_i hn
      rw [if_pos hn] at hg
      cases hch : Ns[rank nm (bitOf c.W (hash &&& c.mask).toNat)]? with
      | none => rw [hch] at hg; cases hg
      | some ch =>
        rw [hch] at hg
        have hg : getLoop c d ch (hash >>> c.B) k = some r := hg
        have hx := congrArg (fun l => l[rank nm (bitOf c.W (hash &&& c.mask).toNat)]?) hgk
        simp only [List.getElem?_map, hch, Option.map_some] at hx
        cases hcs : cs[rank nm (bitOf c.W (hash &&& c.mask).toNat)]? with
        | none => rw [hcs] at hx; cases hx
        | some q =>
          rw [hcs] at hx
          simp only [Option.map_some, Option.some.injEq] at hx
          rw [bind_ok (liftO_eq rfl)]
          refine getAt_out k d q ch _ r s ?_ hg
          rw [← hx]
          exact hk q (List.mem_of_getElem? hcs)
    · rename_i hn
      rw [if_neg hn] at hg
      split
      · rename_i hdm
        rw [if_pos hdm] at hg
        cases hx : xs[rank dm (bitOf c.W (hash &&& c.mask).toNat)]? with
        | none => rw [hx] at hg; cases hg
        | some x =>
          rw [hx] at hg
          have hg : (if c.eqv (c.key x) k = true then some (some x) else some none) = some r := hg
          cases vo with
          | none =>
            have : xs = [] := by simpa using h4
            rw [this] at hx; simp at hx
          | some v =>
            obtain ⟨cv, hcv, hdv, hev⟩ := hv v rfl
            rw [bind_ok (liftO_eq rfl), bind_ok (readEl_eq hcv (v := x) (by rw [hev, List.getElem?_map, hx]; rfl))]
            refine out_bind (eqM_out x k) ?_
            rintro s1 b ⟨h5, _, rfl⟩
            split
            · rename_i hb
              rw [if_pos hb] at hg
              cases hg
              exact ⟨rfl, h5⟩
            · rename_i hb
              rw [if_neg hb] at hg
              cases hg
              exact ⟨rfl, h5⟩
      · rename_i hdm
        rw [if_neg hdm] at hg
        cases hg
        exact ⟨rfl, rfl⟩

/-- `get` on an object -/
theorem get_obj {A : Api K T P} {E : Env (Dat A.cfg.W) T} {u : Toks E.gc} (hA : A.Lawful) {s : St (Dat A.cfg.W) T} {x : Ch} {N : A.cfg.N} (h : Den (sys E u) s.mem x.root (.node N))
    (hN : (⟨N, x.size⟩ : Map A.cfg).Inv) (hs : s.fault = none) (k : K) :
    ∃ s', x.get A k s = .ok s' (look A.cfg (elems A.cfg A.cfg.maxDepth N) k) ∧ s'.mem = s.mem := by
  have hg : getLoop A.cfg A.cfg.maxDepth N (A.cfg.hash k) k = some (look A.cfg (elems A.cfg A.cfg.maxDepth N) k) := Map.get_look hA hN k
  have hc : Calm (x.get A k) := calm_bind calm_tickU fun _ => calm_getAt k _ _ _
  have := out_calm hc hs (Q := fun s' y => y = look A.cfg (elems A.cfg A.cfg.maxDepth N) k ∧ s'.mem = s.mem) (E := fun s' => s'.mem = s.mem) (by
    unfold Ch.get
    refine out_bind (out_mono tick_user (fun _ _ h => h) fun s' h' => h') ?_
    rintro s1 _ ⟨h1, _⟩
    refine out_mono (getAt_out (E := E) (u := u) k A.cfg.maxDepth x.root N _ _ s1 (by rw [h1]; exact h) hg) ?_ ?_
    · rintro s2 y ⟨h2, h3⟩
      exact ⟨h2, h3.trans h1⟩
    · exact fun s2 h2 => h2.trans h1)
  cases hx : x.get A k s with
  | ok s' y =>
    rw [hx] at this
    obtain ⟨⟨rfl, h2⟩, _⟩ := this
    exact ⟨s', rfl, h2⟩
  | thrown s' => rw [hx] at this; exact this.elim
  | ub => rw [hx] at this; exact this.elim

end
end ChampHeap
