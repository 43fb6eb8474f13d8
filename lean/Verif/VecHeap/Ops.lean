import Verif.VecHeap.SliceMut
import Verif.Rrb.VecSpec

/-!
# The operations of vectors on memory compute those on values
-/

namespace VecHeap
open Mm Rrb

variable {T : Type} {c : Cfg} {E : Env Dat T} {u : Toks E.gc} {O : List Nat} {L : List (Ref (Val T))}

/-- the references a vector has -/
def refs (v : Vc) (t : Tree T) (k : Nat) : List (Ref (Val T)) := [⟨v.root, .node t.root, k, false⟩, ⟨v.tail, .node t.tail, k, false⟩]

/-- the numbers in the object -/
structure Is (v : Vc) (t : Tree T) : Prop where
  size : v.size = t.size
  shift : v.shift = t.shift

/-- a new vector -/
def Made (c : Cfg) (E : Env Dat T) (u : Toks E.gc) (O : List Nat) (L : List (Ref (Val T))) (m : Mem Dat T) (t : Tree T) (k : Nat) (s' : St Dat T) (v : Vc) : Prop :=
  Is v t ∧ Inv (sys c E u) s'.mem O (refs v t k ++ L) ∧ Kept (sys c E u) O L m s'.mem

section
variable {s : St Dat T} {m m' : Mem Dat T} {p q n i k e : Nat} {xs l : List T} {t t' : Tree T} {v : Vc} {N : Node T} {r : Ref (Val T)} {own : Option Nat} {cl : Cell Dat T}

/-- the parts of a vector -/
structure Parts (c : Cfg) (v : Vc) (t : Tree T) (pre tl : List T) : Prop where
  off : v.off c = pre.length
  off' : Vec.tailOffset c t.size = pre.length
  rest : v.size - v.off c = tl.length
  size : v.size = pre.length + tl.length
  tail : t.tail = .leaf tl
  le : tl.length ≤ 2 ^ c.BL
  dvd : 2 ^ c.BL ∣ pre.length
  root : (pre = [] ∧ t.root = emptyRoot ∧ v.shift = c.BL) ∨
    ∃ h, pre ≠ [] ∧ v.shift = c.BL + c.B * h ∧ levels c v.shift = h + 1 ∧ Reg c (h + 1) t.root ∧ els (h + 1) t.root = pre ∧ Fits c (h + 1) (v.shp c) t.root ∧ Vec.rootPos c t = (v.shp c).pos t.root

theorem parts (hB : 0 < c.B) (hi : Is v t) (h : Vec.Inv c t l) : ∃ pre tl, l = pre ++ tl ∧ Parts c v t pre tl := by
  obtain ⟨pre, tl, rfl, hsz, ht, hpre, hroot⟩ := h
  obtain ⟨hdvd, htl, htl0⟩ := Vec.Inv.parts hpre
  have ho' : Vec.tailOffset c t.size = pre.length := by rw [hsz, hpre]
  have ho : v.off c = pre.length := by unfold Vc.off; rw [hi.size, ho']
  have hs : v.size = pre.length + tl.length := by rw [hi.size, hsz]; simp
  refine ⟨pre, tl, rfl, ho, ho', by omega, hs, ht, htl, hdvd, ?_⟩
  rcases hroot with ⟨h1, h2, h3⟩ | ⟨h, h1, h2, h3, h4⟩
  · exact .inl ⟨h1, h2, hi.shift.trans h3⟩
  · have hsh := hi.shift.trans h1
    refine .inr ⟨h, ?_, hsh, by rw [hsh]; exact levels_shift hB h, h2, h3, ?_, ?_⟩
    · rintro rfl
      have := h2.len.1
      rw [h3] at this
      simp at this
    · unfold Vc.shp
      rw [hsh, ho]
      exact Fits.regSub h2 (by rw [h3])
    · unfold Vec.rootPos Vc.shp
      rw [ho, ho', hi.shift]
      rfl

theorem inc_ref {w : Val T} (h : Inv (sys c E u) s.mem O L) (ha : At (sys c E u) s.mem L p w) (hh : Held (sys c E u) s.mem L p) (k : Nat) :
    Out (inc E p s) (fun s' _ => Inv (sys c E u) s'.mem O (⟨p, w, k, false⟩ :: L) ∧ Kept (sys c E u) O L s.mem s'.mem) (fun _ => False) := by
  obtain ⟨cl, hc⟩ := h.reach_cell ha.reach
  rw [inc_eq hc]
  obtain ⟨hi2, hk2, _⟩ := dup_refs h (Lc := [⟨p, w, k, false⟩]) (by
    intro w hw
    rw [List.mem_singleton] at hw
    subst hw
    exact ⟨rfl, ha, hh⟩) k
  exact ⟨hi2, hk2⟩

theorem inc_mem {w : Val T} {j : Nat} (h : Inv (sys c E u) s.mem O L) (hr : ⟨p, w, j, false⟩ ∈ L) (hu : ∀ cl, s.mem p = some cl → ¬ u.live cl.tok) (k : Nat) :
    Out (inc E p s) (fun s' _ => Inv (sys c E u) s'.mem O (⟨p, w, k, false⟩ :: L) ∧ Kept (sys c E u) O L s.mem s'.mem) (fun _ => False) := by
  obtain ⟨cl, _, hc, _, _, _, _, hO⟩ := h.look hr
  rw [inc_eq hc]
  refine ⟨h.dup1 hr hc (hu cl hc) rfl k, Kept.incs h _ ?_⟩
  intro a ha
  rw [List.mem_singleton] at ha
  subst ha
  exact hO

theorem unowned (h : Inv (sys c E u) m O L) (hr : r ∈ L) (ht : r.tok = 0) : ∀ cl, m r.ptr = some cl → ¬ u.live cl.tok :=
  (h.at0 hr (by rw [ht]; exact u.live0)).unowned

theorem refs_ok (h : Inv (sys c E u) m O L) (hr : ∀ r ∈ refs v t 0, r ∈ L) : At (sys c E u) m L v.root (.node t.root) ∧ At (sys c E u) m L v.tail (.node t.tail) :=
  ⟨h.at0 (hr ⟨v.root, .node t.root, 0, false⟩ (by simp [refs])) u.live0, h.at0 (hr ⟨v.tail, .node t.tail, 0, false⟩ (by simp [refs])) u.live0⟩

/-- destructor -/
theorem drop_out (hB : 0 < c.B) (hi : Is v t) (hv : Vec.Inv c t l) (h : Inv (sys c E u) s.mem O (refs v t k ++ L)) :
    Out (v.drop c E s) (fun s' _ => Gone c E u O L s.mem s'.mem) (fun _ => False) := by
  obtain ⟨pre, tl, rfl, hp⟩ := parts hB hi hv
  unfold Vc.drop
  refine out_bind (Q := fun s' _ => Gone c E u O (⟨v.tail, .node t.tail, k, false⟩ :: L) s.mem s'.mem) ?_ ?_
  · rcases hp.root with ⟨h1, h2, h3⟩ | ⟨d, h1, h2, h3, h4, h5, h6, -⟩
    · rw [if_neg (by rw [hp.off, h1]; simp)]
      exact decEmpty_out (r := ⟨v.root, .node t.root, k, false⟩) (by rw [← h2]) h
    · rw [if_pos (by rw [hp.off]; simpa using h1), h3]
      exact decV_out hB (d + 1) O _ s ⟨v.root, .node t.root, k, false⟩ _ _ rfl h6 h
  · intro s1 _ hg
    refine out_mono (decLeaf_out (r := ⟨v.tail, .node t.tail, k, false⟩) (by rw [hp.tail]) hp.rest.symm hg.1) ?_ (fun _ h => h)
    exact fun s2 _ hg2 => Gone.trans (Kept.tail hg.2) hg2

/-- copy constructor -/
theorem share_out (h : Inv (sys c E u) s.mem O L) (hr : ∀ r ∈ refs v t 0, r ∈ L) (k : Nat) :
    Out (v.share E s) (fun s' _ => Inv (sys c E u) s'.mem O (refs v t k ++ L) ∧ Kept (sys c E u) O L s.mem s'.mem) (fun _ => False) := by
  unfold Vc.share
  have h1 : (⟨v.root, .node t.root, 0, false⟩ : Ref (Val T)) ∈ L := hr _ (by simp [refs])
  have h2 : (⟨v.tail, .node t.tail, 0, false⟩ : Ref (Val T)) ∈ L := hr _ (by simp [refs])
  refine out_bind (inc_mem h h1 (unowned h h1 rfl) k) ?_
  rintro s1 _ ⟨hi1, hk1⟩
  refine out_mono (inc_mem hi1 (List.mem_cons_of_mem _ h2) (unowned hi1 (List.mem_cons_of_mem _ h2) rfl) k) ?_ (fun _ h => h)
  rintro s2 _ ⟨hi2, hk2⟩
  exact ⟨hi2.permL (List.Perm.swap _ _ _), hk1.trans (Kept.tail hk2)⟩

/-- `empty()`; `er` and `et` are the static nodes -/
def Statics (er et : Nat) (L : List (Ref (Val T))) : Prop := ⟨er, .node emptyRoot, 0, false⟩ ∈ L ∧ ⟨et, .node emptyTail, 0, false⟩ ∈ L

theorem empty_out {er et : Nat} (h : Inv (sys c E u) s.mem O L) (hs : Statics er et L) (k : Nat) :
    Out (Vc.empty c E er et s) (fun s' v => v = ⟨0, c.BL, er, et⟩ ∧ Made c E u O L s.mem (Vec.empty c) k s' v) (fun _ => False) := by
  unfold Vc.empty
  refine out_bind (inc_mem h hs.1 (unowned h hs.1 rfl) k) ?_
  rintro s1 _ ⟨hi1, hk1⟩
  refine out_bind (inc_mem hi1 (List.mem_cons_of_mem _ hs.2) (unowned hi1 (List.mem_cons_of_mem _ hs.2) rfl) k) ?_
  rintro s2 _ ⟨hi2, hk2⟩
  exact ⟨rfl, ⟨rfl, rfl⟩, hi2.permL (List.Perm.swap _ _ _), hk1.trans (Kept.tail hk2)⟩

/-- a leaf that was made or may be changed -/
structure Opened (c : Cfg) (E : Env Dat T) (u : Toks E.gc) (e : Nat) (O : List Nat) (L : List (Ref (Val T))) (xs : List T) (m : Mem Dat T) (q : Nat) (cl : Cell Dat T) : Prop where
  cell : m q = some cl
  data : cl.data = .leaf
  els : Elems cl.els xs
  len : cl.els.length = 2 ^ c.BL
  rc : E.gc = false → cl.rc = 1
  tok : E.gc = true → cl.tok = e
  inv : Inv (sys c E u) m (q :: O) L

/-- other elements -/
theorem Opened.put {ys : List T} {es : List (Slot T)} (h : Opened c E u e O L xs m q cl) (hx : Elems es ys) (hl : es.length = 2 ^ c.BL) :
    Inv (sys c E u) (upd m q (some { cl with els := es })) O (⟨q, .node (.leaf ys), e, false⟩ :: L) :=
  VecHeap.retok (close_leaf (cl := { cl with els := es }) (h.inv.write List.mem_cons_self _) upd_self h.data hx h.rc (fun _ => hl) (fun _ => hl) h.tok) (fun _ => rfl) false (fun h => by cases h)

/-- `ensure_mutable_tail` -/
theorem mutableTail_out (hE : E.Fresh) (he : E.gc = true → u.live e) (hn : xs.length = n) (hb : n ≤ 2 ^ c.BL) (h : Inv (sys c E u) s.mem O (⟨v.tail, .node (.leaf xs), e, false⟩ :: L)) :
    Out (v.mutableTail c E e n s) (fun s' v' => ∃ q cl, v' = { v with tail := q } ∧ Opened c E u e O L xs s'.mem q cl ∧ Kept (sys c E u) O L s.mem s'.mem)
      (fun s' => Gone c E u O (⟨v.tail, .node (.leaf xs), e, false⟩ :: L) s.mem s'.mem) := by
  obtain ⟨cl, _, hc, _⟩ := h.look List.mem_cons_self
  have hc : s.mem v.tail = some cl := hc
  unfold Vc.mutableTail
  rw [bind_ok (canMutate_eq hc)]
  by_cases hm : mutable E e cl = true
  · rw [if_pos hm]
    obtain ⟨hd, hx, hl, hi⟩ := open_leaf he h rfl hc hm
    exact ⟨v.tail, cl, rfl, ⟨hc, hd, hx, hl, fun hg => mutable_rc hg hm, fun hg => mutable_tok hg hm, hi⟩, .refl⟩
  · rw [if_neg hm]
    have hm := Bool.eq_false_iff.mpr hm
    have ha := at_of_shared h List.mem_cons_self hc hm (fun _ => rfl)
    obtain ⟨cl', hc', _, hx, _⟩ := at_leaf h ha
    subst hn
    refine out_bind (out_mono (copyLeafN_out (own := some e) hE h hc' hx (Nat.le_refl _) (Nat.le_refl _) hb) (fun _ _ h => h) (fun _ he => gone_of_eq h he)) ?_
    rintro s1 q ⟨hn, hs1⟩
    rw [List.take_length] at hs1
    have hi1 : Inv (sys c E u) s1.mem (q :: O) (⟨v.tail, .node (.leaf xs), e, false⟩ :: L) := by rw [hs1]; exact h.alloc hn _
    have hk1 : Kept (sys c E u) O (⟨v.tail, .node (.leaf xs), e, false⟩ :: L) s.mem s1.mem := by rw [hs1]; exact Kept.new h hn _
    refine out_bind (out_mono (decLeaf_out rfl rfl hi1) (fun _ _ h => h) (fun _ h => h.elim)) ?_
    intro s2 _ hg
    refine ⟨q, leafCell c E (some e) xs.length xs, rfl, ⟨?_, rfl, ⟨_, rfl⟩, leafCell_length (Nat.le_refl _) hb, fun _ => rfl, fun hg => tk_gc hg, hg.1⟩, (Kept.tail hk1).trans (Kept.open hg.2)⟩
    rw [hg.2.2 q List.mem_cons_self, hs1]; exact upd_self

theorem Elems.push {es : List (Slot T)} (h : Elems es xs) (hl : xs.length < es.length) (x : T) : es[xs.length]? = some .raw ∧ Elems (es.set xs.length (.live x)) (xs ++ [x]) := by
  obtain ⟨k, rfl⟩ := h
  obtain _ | k := k
  · simp at hl
  · refine ⟨?_, k, ?_⟩
    · rw [List.getElem?_append_right (by simp)]
      simp
    · rw [List.set_append_right _ _ (by simp)]
      simp [List.replicate_succ]

/-- the cases of `push_back` -/
theorem Parts.push (hB : 0 < c.B) {pre tl : List T} {x : T} (hi : Is v t) (hp : Parts c v t pre tl) (h : Vec.pushBack c t x = some t') :
    (tl.length < 2 ^ c.BL ∧ t' = ⟨t.size + 1, t.shift, t.root, .leaf (tl ++ [x])⟩) ∨
    (¬ tl.length < 2 ^ c.BL ∧ t'.size = t.size + 1 ∧ t'.tail = .leaf [x] ∧
      ((v.off c = 2 ^ c.B <<< v.shift ∧ t'.shift = t.shift + c.B ∧ t'.root = .inner none [t.root, mkPath (levels c v.shift) t.tail]) ∨
       (v.off c ≠ 2 ^ c.B <<< v.shift ∧ v.off c ≠ 0 ∧ t'.shift = t.shift ∧ ∃ d, levels c v.shift = d + 1 ∧ Fits c (d + 1) (v.shp c) t.root ∧ RegPos c d ((v.shp c).pos t.root) t.root (v.off c) ∧
          (els (d + 1) t.root).length < cap c (d + 1) ∧ pushTail c t.tail (2 ^ c.BL) (d + 1) ((v.shp c).pos t.root) = some (some t'.root)) ∨
       (v.off c ≠ 2 ^ c.B <<< v.shift ∧ v.off c = 0 ∧ t.root = emptyRoot ∧ t'.shift = t.shift ∧ levels c v.shift = 1 ∧ t'.root = .inner none [t.tail]))) := by
  have hts : t.size - pre.length = tl.length := by rw [← hi.size, ← hp.off]; exact hp.rest
  have hle := hp.le
  have h2 : 2 ≤ 2 ^ c.B := by
    calc 2 = 2 ^ 1 := rfl
      _ ≤ 2 ^ c.B := Nat.pow_le_pow_right (by omega) hB
  have h1 : 1 ≤ 2 ^ c.BL := Nat.one_le_two_pow
  simp only [Vec.pushBack, hp.off', hts] at h
  by_cases hlt : tl.length < 2 ^ c.BL
  · left
    rw [if_pos hlt] at h
    refine ⟨hlt, ?_⟩
    simp only [Rrb.copyLeafEmplace, hp.tail, Node.leaf?, Option.bind_eq_bind, Option.bind_some, slice_all rfl] at h
    rw [Vec.mkLeaf_ok (by simp; omega)] at h
    cases h
    rfl
  · right
    rw [if_neg hlt, Vec.mkLeaf_ok (by simpa using h1)] at h
    simp only [Option.bind_eq_bind, Option.bind_some] at h
    rw [hp.off, hi.shift]
    refine ⟨hlt, ?_⟩
    by_cases hfull : pre.length = 2 ^ c.B <<< t.shift
    · rw [if_pos hfull, Vec.mkInner_ok (by simpa using h2)] at h
      cases h
      exact ⟨rfl, rfl, .inl ⟨hfull, rfl, rfl⟩⟩
    · rw [if_neg hfull] at h
      rcases hp.root with ⟨rfl, hr, hs⟩ | ⟨d, hne, hs, hlev, hr, he, hf, hpos⟩
      · simp only [List.length_nil, ne_eq, not_true_eq_false, if_false] at h
        cases h
        have hlev : levels c t.shift = 1 := by rw [← hi.shift, hs]; simpa using levels_shift hB 0
        exact ⟨rfl, rfl, .inr (.inr ⟨hfull, rfl, hr, rfl, hlev, by rw [hlev]; rfl⟩)⟩
      · have hpos0 : pre.length ≠ 0 := by simpa using hne
        rw [if_pos hpos0, hpos, ← hi.shift, hlev] at h
        have hcap : 2 ^ c.B <<< t.shift = cap c (d + 1) := by
          rw [← hi.shift, hs, Nat.shiftLeft_eq, pow_shift, cap_succ, mul_comm]
        have hlen := hr.len
        rw [he] at hlen
        cases hq : pushTail c t.tail (2 ^ c.BL) (d + 1) ((v.shp c).pos t.root) with
        | none => rw [hq] at h; cases h
        | some R =>
          rw [hq] at h
          cases R with
          | none => cases h
          | some R =>
            cases h
            refine ⟨rfl, rfl, .inr (.inl ⟨hfull, hpos0, hi.shift, d, by rw [← hi.shift]; exact hlev, hf, .inr ⟨?_, hlen.2.1⟩, ?_, hq⟩)⟩
            · unfold Vc.shp
              rw [hp.off, hs]
              rfl
            · rw [he]
              omega

/-- a new root above the old one -/
theorem grow_out {β : Type} (hB : 0 < c.B) (hE : E.Fresh) (ht : E.gc = true → own.getD 0 = k) {rr rt : Ref (Val T)} {Nr Nt : Node T} (hrr : rr.val = .node Nr) (hrt : rt.val = .node Nt) (hkr : rr.tok = k) (hkt : rt.tok = k)
    {d : Nat} {K : Nat → HM T β} {Q : St Dat T → β → Prop} (h : Inv (sys c E u) s.mem O (rt :: rr :: L))
    (hK : ∀ s' nr, Inv (sys c E u) s'.mem O (⟨nr, .node (.inner none [Nr, mkPath d Nt]), k, false⟩ :: L) → Kept (sys c E u) O (rt :: rr :: L) s.mem s'.mem → From (sys c E u) s'.mem nr rr.ptr → From (sys c E u) s'.mem nr rt.ptr →
      rr.ptr ≠ nr → rt.ptr ≠ nr → Out (K nr s') Q (fun _ => False)) :
    Out (((newInner c E own 2).bind fun nr => ((makePath c E own d rt.ptr).bind fun path => (putKid nr 0 rr.ptr).bind fun _ => (putKid nr 1 path).bind fun _ => K nr).guard (freeInner c E own nr 2)) s) Q
      (fun s' => Gone c E u O (rt :: rr :: L) s.mem s'.mem) := by
  have h2 : 2 ≤ 2 ^ c.B := by
    calc 2 = 2 ^ 1 := rfl
      _ ≤ 2 ^ c.B := Nat.pow_le_pow_right (by omega) hB
  refine out_bind (out_mono (newInner_out hE h) (fun _ _ h => h) (fun _ he => gone_of_eq h he)) ?_
  rintro s1 nr ⟨hn, hs1⟩
  have hne : ∀ r ∈ rt :: rr :: L, r.ptr ≠ nr := by
    rintro r hr rfl
    obtain ⟨cl, _, hc, _⟩ := h.look hr
    rw [hc] at hn
    cases hn
  have hop := Op.new h hn 2 own
  rw [← hs1] at hop
  have hk1 : Kept (sys c E u) O (rt :: rr :: L) s.mem s1.mem := by rw [hs1]; exact Kept.new h hn _
  have hcap : 2 ≤ capI c E own 2 := capI_le h2
  refine out_guard (E' := fun s' => Gone c E u (nr :: O) (rt :: rr :: L) s1.mem s'.mem) ?_ ?_
  · refine out_bind (makePath_out hE (fun hg => (ht hg).trans hkt.symm) hrt d (nr :: O) s1 hop.inv) ?_
    rintro s2 path ⟨hi2, hk2, hf2⟩
    have hop2 := hop.mem (L' := rr :: ⟨path, .node (mkPath d Nt), rt.tok, false⟩ :: L) (hi2.permL (List.Perm.swap _ _ _)) (hk2.2 _ List.mem_cons_self)
    have htk : E.gc = true → VecHeap.tk E own = k := fun hg => (tk_gc hg).trans (ht hg)
    obtain ⟨cl3, hp3, ht3, hop3, hk3⟩ := hop2.push (n := 0) hrr (fun hg => hkr.trans (htk hg).symm) (by simp; omega) rfl
    rw [bind_ok hp3]
    obtain ⟨cl4, hp4, ht4, hop4, _⟩ := hop3.push (s := { s2 with mem := upd s2.mem nr (some cl3) }) (n := 1) rfl (fun hg => by rw [ht3]; exact hkt.trans (htk hg).symm) (by simp; omega) rfl
    have hk4 := Kept.write (p := nr) (O := O) hop3.inv (some cl4)
    refine out_bind (Q := fun s' _ => s' = _) (by rw [hp4]; rfl) ?_
    rintro s' _ rfl
    have hreach : From (sys c E u) (upd (upd s2.mem nr (some cl3)) nr (some cl4)) nr path := hop4.from (r := ⟨path, .node (mkPath d Nt), rt.tok, false⟩) (by simp)
    have hkA : Kept (sys c E u) O (rt :: rr :: L) s2.mem (upd s2.mem nr (some cl3)) :=
      Kept.from (q := path) (v := .node (mkPath d Nt)) (t := rt.tok) (b := false) (Kept.permL hk3 (List.Perm.swap _ _ _)) hf2
    have hf3 : From (sys c E u) (upd s2.mem nr (some cl3)) path rt.ptr := From.kept (v := .node (mkPath d Nt)) (t := rt.tok) (b := false) (Kept.permL hk3 (List.Perm.swap _ _ _)) hf2
    have hk4' : Kept (sys c E u) O (⟨path, .node (mkPath d Nt), rt.tok, false⟩ :: rr :: L) (upd s2.mem nr (some cl3)) (upd (upd s2.mem nr (some cl3)) nr (some cl4)) := Kept.permL hk4 (List.Perm.swap _ _ _)
    have hkB : Kept (sys c E u) O (rt :: rr :: L) (upd s2.mem nr (some cl3)) (upd (upd s2.mem nr (some cl3)) nr (some cl4)) := Kept.from hk4' hf3
    refine out_mono (hK _ nr ?_ ((hk1.trans (Kept.open hk2)).trans (hkA.trans hkB)) (hop4.from (by simp)) (hreach.trans (From.kept hk4' hf3)) (hne _ (by simp)) (hne _ (by simp))) (fun _ _ h => h) (fun _ h => h.elim)
    exact VecHeap.retok (hop4.close (t := k) (fun hg => by rw [ht4, ht3]; exact htk hg)) (fun _ => rfl) false (fun h => by cases h)
  · intro s2 hg
    have hop2 := hop.mem (L' := rt :: rr :: L) hg.1 (hg.2.2 _ List.mem_cons_self)
    refine out_mono (hop2.free rfl rfl) ?_ (fun _ h => h)
    intro s3 _ hg3
    exact Gone.trans (hk1.trans (Kept.open hg.2)) hg3

theorem perm4 {α : Type} (a b c d : α) (L : List α) : (a :: b :: c :: d :: L).Perm (d :: a :: c :: b :: L) := by
  classical
  rw [List.perm_iff_count]
  intro x
  simp only [List.count_cons]
  omega

/-- a new leaf for the last element, given back by the handler -/
theorem newTail_out {β : Type} (hE : E.Fresh) (ho : ∀ e, own = some e → E.gc = true → e ≠ 0) {x : T} {X : Nat → HM T β} {Q : St Dat T → β → Prop} (h : Inv (sys c E u) s.mem O L)
    (hX : ∀ s1 nt, Inv (sys c E u) s1.mem (nt :: O) L → Kept (sys c E u) O L s.mem s1.mem → s1.mem nt = some (leafCell c E own 1 [x]) → Out (X nt s1) Q (fun s' => Gone c E u (nt :: O) L s1.mem s'.mem)) :
    Out (((leafOf c E own x).bind fun nt => (X nt).guard (delLeaf c E nt 1)) s) Q (fun s' => Gone c E u O L s.mem s'.mem) := by
  refine out_bind (out_mono (leafOf_out hE h) (fun _ _ h => h) (fun _ he => gone_of_eq h he)) ?_
  rintro s1 nt ⟨hn, hs1⟩
  have hi1 : Inv (sys c E u) s1.mem (nt :: O) L := by rw [hs1]; exact h.alloc hn _
  have hk1 : Kept (sys c E u) O L s.mem s1.mem := by rw [hs1]; exact Kept.new h hn _
  have hc1 : s1.mem nt = some (leafCell c E own 1 [x]) := by rw [hs1]; exact upd_self
  refine out_guard (hX s1 nt hi1 hk1 hc1) ?_
  intro s2 hg
  refine out_mono (delLeaf_open (xs := [x]) (n := 1) hg.1 ((hg.2.2 _ List.mem_cons_self).trans hc1) rfl ⟨_, rfl⟩ rfl ?_) ?_ (fun _ h => h)
  · rw [leafCell_length (n := 1) (xs := [x]) (Nat.le_refl _) Nat.one_le_two_pow]
    cases own with
    | none => show leafRoom c E 1 = _; rw [show (leafCell c E none 1 [x]).tok = VecHeap.tk E none from rfl, tk_none]; simp
    | some e =>
      show 2 ^ c.BL = _
      by_cases hg : E.gc = true
      · rw [show (leafCell c E (some e) 1 [x]).tok = VecHeap.tk E (some e) from rfl, tk_gc hg, if_pos]
        simpa [hg] using ho e rfl hg
      · simp [hg, leafRoom]
  · exact fun s3 _ hg3 => Gone.trans (hk1.trans (Kept.open hg.2)) hg3

theorem close_tail {x : T} (h : Inv (sys c E u) m (p :: O) L) (hc : m p = some (leafCell c E own 1 [x])) (ht : E.gc = true → own.getD 0 = k) : Inv (sys c E u) m O (⟨p, .node (.leaf [x]), k, false⟩ :: L) := by
  have hlen := leafCell_length (c := c) (E := E) (own := own) (n := 1) (xs := [x]) (Nat.le_refl _) Nat.one_le_two_pow
  refine VecHeap.retok (close_leaf (t := k) h hc rfl ⟨_, rfl⟩ (fun _ => rfl) ?_ ?_ ?_) (fun _ => rfl) false (fun h => by cases h)
  · intro hg; rw [hlen]; exact capL_rc hg
  · intro hne; rw [hlen]; exact capL_tk hne
  · intro hg; exact (tk_gc hg).trans (ht hg)

theorem Kept.via {L' : List (Ref (Val T))} (hk : Kept (sys c E u) O L m m') (h : ∀ r ∈ L', Reach (sys c E u) m L r.ptr) : Kept (sys c E u) O L' m m' := by
  refine ⟨?_, hk.2⟩
  rintro x ⟨y, hy, hx⟩ cx hcx
  obtain ⟨z, hz, hzy⟩ := h y hy
  exact hk.1 x ⟨z, hz, hzy.trans hx⟩ cx hcx

theorem restore {L1 L2 : List (Ref (Val T))} {w : Val T} (ha : At (sys c E u) m L1 p w) (hk : Kept (sys c E u) O L1 m m') (hf : From (sys c E u) m' q p) (hne : p ≠ q) (hr : r ∈ L2) (hq : r.ptr = q) :
    At (sys c E u) m' L2 p w ∧ Held (sys c E u) m' L2 p := by
  have ha' := ha.kept hk
  subst hq
  obtain ⟨a, ca, h1, h2, h3⟩ := From.last hf hne
  exact ⟨⟨⟨r, hr, hf⟩, ha'.den, ha'.unowned⟩, a, ca, ⟨r, hr, h1⟩, h2, h3⟩

/-- the tail may be changed in place by `e` -/
def Mine (E : Env Dat T) (m : Mem Dat T) (e : Nat) (v : Vc) : Prop := ∃ cl, m v.tail = some cl ∧ mutable E e cl = true

/-- `push_back_mut`; afterwards the tail may be changed in place -/
theorem pushBackMut_mine (hB : 0 < c.B) (hE : E.Fresh) (he : E.gc = true → u.live e) {x : T} (hi : Is v t) (hv : Vec.Inv c t l) (hp : Vec.pushBack c t x = some t') (h : Inv (sys c E u) s.mem O (refs v t e ++ L)) :
    Out (v.pushBackMut c E e x s) (fun s' v' => Made c E u O L s.mem t' e s' v' ∧ Mine E s'.mem e v') (fun s' => Gone c E u O (refs v t e ++ L) s.mem s'.mem) := by
  obtain ⟨pre, tl, rfl, hpt⟩ := parts hB hi hv
  unfold Vc.pushBackMut
  rw [hpt.rest]
  have hsw : (refs v t e ++ L).Perm (⟨v.tail, .node t.tail, e, false⟩ :: ⟨v.root, .node t.root, e, false⟩ :: L) := List.Perm.swap _ _ _
  have h' := h.permL hsw
  rcases hpt.push hB hi hp with ⟨h1, rfl⟩ | ⟨h1, h2, h3, hcases⟩
  · rw [if_pos h1]
    rw [hpt.tail] at h' hsw
    refine out_bind (out_mono (mutableTail_out hE he rfl (by omega) h') (fun _ _ h => h) (fun _ hg => Gone.permL hg hsw.symm)) ?_
    rintro s1 v' ⟨q, cl, rfl, ho, hk⟩
    obtain ⟨hraw, hel⟩ := ho.els.push (by rw [ho.len]; exact h1) x
    refine out_bind (Q := fun s' _ => s' = _) (by rw [show (({ v with tail := q } : Vc).size - ({ v with tail := q } : Vc).off c) = tl.length from hpt.rest, construct_eq ho.cell hraw]; rfl) ?_
    rintro s2 _ rfl
    refine ⟨⟨⟨by simp [hi.size], hi.shift⟩, (ho.put hel (by simpa using ho.len)).permL (List.Perm.swap _ _ _), ?_⟩, ?_⟩
    · exact (Kept.tail hk).trans (Kept.tail (Kept.write ho.inv _))
    · exact ⟨_, upd_self, mutable_intro ho.rc ho.tok⟩
  · rw [if_neg h1]
    refine out_mono (newTail_out (own := some e) (Q := fun s' v' => Made c E u O L s.mem t' e s' v' ∧ Mine E s'.mem e v') hE (fun _ h hg h0 => by cases h; subst h0; exact u.live0 (he hg)) h' ?_) (fun _ _ h => h) (fun _ hg => Gone.permL hg hsw.symm)
    intro s1 nt hi1 hk1 hc1
    have hkL : ∀ {s2 : St Dat T}, Kept (sys c E u) (nt :: O) L s1.mem s2.mem → Kept (sys c E u) O L s.mem s2.mem := fun hk => (Kept.tail (Kept.tail hk1)).trans (Kept.open hk)
    have hdone : ∀ (s2 : St Dat T) (nr sh : Nat), t'.shift = sh → Inv (sys c E u) s2.mem (nt :: O) (⟨nr, .node t'.root, e, false⟩ :: L) → Kept (sys c E u) (nt :: O) L s1.mem s2.mem → Made c E u O L s.mem t' e s2 ⟨v.size + 1, sh, nr, nt⟩ ∧ Mine E s2.mem e ⟨v.size + 1, sh, nr, nt⟩ := by
      rintro s2 nr sh rfl hi2 hk2
      refine ⟨⟨⟨by rw [h2, hi.size], rfl⟩, ?_, hkL hk2⟩, _, (hk2.2 _ List.mem_cons_self).trans hc1, mutable_intro (fun _ => rfl) (fun hg => tk_gc hg)⟩
      unfold refs
      rw [h3]
      exact (close_tail hi2 ((hk2.2 _ List.mem_cons_self).trans hc1) (fun _ => rfl)).permL (List.Perm.swap _ _ _)
    rcases hcases with ⟨a1, a2, a3⟩ | ⟨a1, a2, a3, d, a4, a5, a6, a7, a8⟩ | ⟨a1, a2, a3, a4, a5, a6⟩
    · rw [if_pos a1]
      refine grow_out (own := some e) (k := e) (rr := ⟨v.root, .node t.root, e, false⟩) (rt := ⟨v.tail, .node t.tail, e, false⟩) hB hE (fun _ => rfl) rfl rfl rfl rfl (K := fun nr => M.ret (Vc.mk (v.size + 1) (v.shift + c.B) nr nt)) hi1 ?_
      intro s2 nr hi2 hk2 _ _ _ _
      exact hdone s2 nr _ (by rw [a2, hi.shift]) (by rw [a3]; exact hi2) (Kept.tail (Kept.tail hk2))
    · rw [if_neg a1, if_pos a2, a4]
      refine out_bind (pushTailMut_out hB hE he (rt := ⟨v.tail, .node t.tail, e, false⟩) (fun _ => rfl) rfl d (nt :: O) L s1 ⟨v.root, .node t.root, e, false⟩ _ _ _ _ a5 a6 a7 a8 rfl (fun _ => rfl) hi1) ?_
      rintro s2 nr ⟨hi2, hk2⟩
      exact hdone s2 nr _ (by rw [a3, hi.shift]) hi2 hk2
    · rw [if_neg a1, if_neg (by rw [a2]; simp), a5]
      refine out_bind (makePath_out (own := some e) hE (rt := ⟨v.tail, .node t.tail, e, false⟩) (fun _ => rfl) rfl 1 (nt :: O) s1 hi1) ?_
      rintro s2 nr ⟨hi2, hk2, _⟩
      refine out_bind (out_mono (decEmpty_out (r := ⟨v.root, .node t.root, e, false⟩) (by rw [a3]) (hi2.permL (List.Perm.swap _ _ _))) (fun _ _ h => h) (fun _ h => h.elim)) ?_
      intro s3 _ hg
      exact hdone s3 nr _ (by rw [a4, hi.shift]) (by rw [a6]; exact hg.1) ((Kept.tail (Kept.tail hk2)).trans (Kept.tail hg.2))

theorem pushBackMut_out (hB : 0 < c.B) (hE : E.Fresh) (he : E.gc = true → u.live e) {x : T} (hi : Is v t) (hv : Vec.Inv c t l) (hp : Vec.pushBack c t x = some t') (h : Inv (sys c E u) s.mem O (refs v t e ++ L)) :
    Out (v.pushBackMut c E e x s) (Made c E u O L s.mem t' e) (fun s' => Gone c E u O (refs v t e ++ L) s.mem s'.mem) :=
  out_mono (pushBackMut_mine hB hE he hi hv hp h) (fun _ _ h => h.1) (fun _ h => h)

/-- `push_back` -/
theorem pushBack_out (hB : 0 < c.B) (hE : E.Fresh) {x : T} (hi : Is v t) (hv : Vec.Inv c t l) (hp : Vec.pushBack c t x = some t') (h : Inv (sys c E u) s.mem O (refs v t 0 ++ L)) :
    Out (v.pushBack c E x s) (Made c E u O (refs v t 0 ++ L) s.mem t' 0) (fun s' => Gone c E u O (refs v t 0 ++ L) s.mem s'.mem) := by
  obtain ⟨pre, tl, rfl, hpt⟩ := parts hB hi hv
  obtain ⟨har, hat⟩ := refs_ok h (v := v) (t := t) (fun r hr => List.mem_append_left _ hr)
  unfold Vc.pushBack
  rw [hpt.rest]
  rcases hpt.push hB hi hp with ⟨h1, rfl⟩ | ⟨h1, h2, h3, hcases⟩
  · rw [if_pos h1]
    rw [hpt.tail] at hat
    refine out_bind (copyLeafEmplace_out (x := x) hE h hat rfl h1) ?_
    rintro s1 q ⟨hi1, hk1⟩
    have hm : (⟨v.root, .node t.root, 0, false⟩ : Ref (Val T)) ∈ ⟨q, .node (.leaf (tl ++ [x])), 0, false⟩ :: (refs v t 0 ++ L) := by simp [refs]
    have hi1 := VecHeap.retok hi1 (t' := 0) (fun _ => rfl) false (fun h => by cases h)
    refine out_bind (out_mono (inc_mem hi1 hm (unowned hi1 hm rfl) 0) (fun _ _ h => h) (fun _ h => h.elim)) ?_
    rintro s2 _ ⟨hi2, hk2⟩
    exact ⟨⟨by simp [hi.size], hi.shift⟩, hi2, hk1.trans (Kept.tail hk2)⟩
  · rw [if_neg h1]
    have hsw : (refs v t 0 ++ L).Perm (⟨v.tail, .node t.tail, 0, false⟩ :: ⟨v.root, .node t.root, 0, false⟩ :: L) := List.Perm.swap _ _ _
    have h' := h.permL hsw
    refine out_mono (newTail_out (own := none) (Q := Made c E u O (refs v t 0 ++ L) s.mem t' 0) hE (fun _ h => by cases h) h' ?_) (fun _ _ h => h) (fun _ hg => Gone.permL hg hsw.symm)
    intro s1 nt hi1 hk1 hc1
    have har1 := (har.mono (fun r hr => hsw.mem_iff.mp hr)).kept hk1
    have hat1 := (hat.mono (fun r hr => hsw.mem_iff.mp hr)).kept hk1
    have hdone : ∀ (s2 : St Dat T) (nr sh : Nat), t'.shift = sh → Inv (sys c E u) s2.mem (nt :: O) (⟨v.tail, .node t.tail, 0, false⟩ :: ⟨v.root, .node t.root, 0, false⟩ :: ⟨nr, .node t'.root, 0, false⟩ :: L) →
        Kept (sys c E u) (nt :: O) (⟨v.tail, .node t.tail, 0, false⟩ :: ⟨v.root, .node t.root, 0, false⟩ :: L) s1.mem s2.mem → Made c E u O (refs v t 0 ++ L) s.mem t' 0 s2 ⟨v.size + 1, sh, nr, nt⟩ := by
      rintro s2 nr sh rfl hi2 hk2
      refine ⟨⟨by rw [h2, hi.size], rfl⟩, ?_, Kept.permL (hk1.trans (Kept.open hk2)) hsw.symm⟩
      unfold refs
      rw [h3]
      exact (close_tail hi2 ((hk2.2 _ List.mem_cons_self).trans hc1) (fun _ => rfl)).permL (perm4 _ _ _ _ _)
    rcases hcases with ⟨a1, a2, a3⟩ | ⟨a1, a2, a3, d, a4, a5, a6, a7, a8⟩ | ⟨a1, a2, a3, a4, a5, a6⟩
    · rw [if_pos a1]
      refine grow_out (own := none) (k := 0) (rr := ⟨v.root, .node t.root, 0, false⟩) (rt := ⟨v.tail, .node t.tail, 0, false⟩) hB hE (fun _ => rfl) rfl rfl rfl rfl
        (K := fun nr => (inc E v.root).bind fun _ => (inc E v.tail).bind fun _ => M.ret (Vc.mk (v.size + 1) (v.shift + c.B) nr nt)) hi1 ?_
      intro s2 nr hi2 hk2 hfr hft hnr hnt
      obtain ⟨b1, b2⟩ := restore (L2 := ⟨nr, .node (.inner none [t.root, mkPath (levels c v.shift) t.tail]), 0, false⟩ :: L) har1 hk2 hfr hnr List.mem_cons_self rfl
      obtain ⟨b3, b4⟩ := restore (L2 := ⟨nr, .node (.inner none [t.root, mkPath (levels c v.shift) t.tail]), 0, false⟩ :: L) hat1 hk2 hft hnt List.mem_cons_self rfl
      refine out_bind (inc_ref hi2 b1 b2 0) ?_
      rintro s3 _ ⟨hi3, hk3⟩
      refine out_bind (inc_ref hi3 ((b3.kept hk3).mono (fun _ h => List.mem_cons_of_mem _ h)) ((b4.kept hk3).mono (fun _ h => List.mem_cons_of_mem _ h)) 0) ?_
      rintro s4 _ ⟨hi4, hk4⟩
      refine hdone s4 nr _ (by rw [a2, hi.shift]) (by rw [a3]; exact hi4) ?_
      refine hk2.trans ((Kept.via hk3 ?_).trans (Kept.via hk4 ?_))
      · intro z hz
        rcases List.mem_cons.mp hz with rfl | hz
        · exact b3.reach
        · rcases List.mem_cons.mp hz with rfl | hz
          · exact b1.reach
          · exact ⟨z, List.mem_cons_of_mem _ hz, .here⟩
      · intro z hz
        rcases List.mem_cons.mp hz with rfl | hz
        · exact ((b3.kept hk3).mono (fun _ h => List.mem_cons_of_mem _ h)).reach
        · rcases List.mem_cons.mp hz with rfl | hz
          · exact ⟨_, List.mem_cons_self, .here⟩
          · exact ⟨z, List.mem_cons_of_mem _ (List.mem_cons_of_mem _ hz), .here⟩
    · rw [if_neg a1, if_pos a2, a4]
      have har' : At (sys c E u) s1.mem (⟨v.root, .node t.root, 0, false⟩ :: L) v.root (.node t.root) := ⟨⟨_, List.mem_cons_self, .here⟩, har1.den, har1.unowned⟩
      refine out_bind (pushTailNew_out (own := none) hB hE (rt := ⟨v.tail, .node t.tail, 0, false⟩) (fun _ => rfl) rfl d (nt :: O) s1 v.root _ _ _ _ a5 a6 a7 a8 hi1 har') ?_
      rintro s2 nr ⟨hi2, hk2, hf2, hne2⟩
      obtain ⟨b3, b4⟩ := restore (L2 := ⟨nr, .node t'.root, 0, false⟩ :: ⟨v.root, .node t.root, 0, false⟩ :: L) hat1 hk2 hf2 hne2.symm List.mem_cons_self rfl
      refine out_bind (out_mono (inc_ref hi2 b3 b4 0) (fun _ _ h => h) (fun _ h => h.elim)) ?_
      rintro s3 _ ⟨hi3, hk3⟩
      refine hdone s3 nr _ (by rw [a3, hi.shift]) (hi3.permL ((List.Perm.swap _ _ _).cons _)) (hk2.trans ?_)
      exact Kept.from (rt := ⟨v.tail, .node t.tail, 0, false⟩) hk3 hf2
    · rw [if_neg a1, if_neg (by rw [a2]; simp), a5]
      refine out_bind (makePath_out (own := none) hE (rt := ⟨v.tail, .node t.tail, 0, false⟩) (fun _ => rfl) rfl 1 (nt :: O) s1 hi1) ?_
      rintro s2 nr ⟨hi2, hk2, hf2⟩
      have hne2 : v.tail ≠ nr := by
        intro he
        have d1 := (hat1.kept hk2).den
        have d2 := hi2.den (List.mem_cons_self)
        rw [hpt.tail] at d1
        rw [he] at d1
        have := d1.unique (ranked c E u) d2
        cases this
      obtain ⟨b3, b4⟩ := restore (L2 := ⟨nr, .node (mkPath 1 t.tail), 0, false⟩ :: ⟨v.root, .node t.root, 0, false⟩ :: L) hat1 hk2 hf2 hne2 List.mem_cons_self rfl
      refine out_bind (out_mono (inc_ref hi2 b3 b4 0) (fun _ _ h => h) (fun _ h => h.elim)) ?_
      rintro s3 _ ⟨hi3, hk3⟩
      refine hdone s3 nr _ (by rw [a4, hi.shift]) (by rw [a6]; exact (hi3.permL ((List.Perm.swap _ _ _).cons _))) (hk2.trans ?_)
      exact Kept.from (rt := ⟨v.tail, .node t.tail, 0, false⟩) hk3 hf2

end
end VecHeap
