import Verif.VecHeap.Release

/-!
# Making nodes
-/

namespace VecHeap
open Mm Rrb

variable {T : Type} {c : Cfg} {E : Env Dat T} {u : Toks E.gc} {O : List Nat} {L : List (Ref (Val T))}

/-- the token of a new node -/
def tk (E : Env Dat T) (own : Option Nat) : Nat := if E.gc then own.getD 0 else 0

/-- the room in new nodes -/
def capI (c : Cfg) (E : Env Dat T) (own : Option Nat) (n : Nat) : Nat := match own with | none => innerRoom c E n | some _ => 2 ^ c.B
def capL (c : Cfg) (E : Env Dat T) (own : Option Nat) (n : Nat) : Nat := match own with | none => leafRoom c E n | some _ => 2 ^ c.BL

section
variable {s : St Dat T} {m m' : Mem Dat T} {p q n i : Nat} {xs : List T} {N : Node T} {Ns : List (Node T)} {ks : List Nat} {cl : Cell Dat T} {r : Ref (Val T)} {own : Option Nat} {t : Nat}

theorem live_gc (h : u.live t) : E.gc = true := by
  by_cases hg : E.gc = true
  · exact hg
  · exact absurd h (u.liveGc (by simpa using hg) t)

theorem tk_gc (hg : E.gc = true) : tk E own = own.getD 0 := by unfold tk; rw [if_pos hg]

theorem tk_none : tk E none = 0 := by unfold tk; split <;> rfl

theorem capI_rc (hg : E.gc = false) : capI c E own n = 2 ^ c.B := by
  cases own with
  | none => exact innerRoom_rc hg
  | some => rfl

theorem capL_rc (hg : E.gc = false) : capL c E own n = 2 ^ c.BL := by
  cases own with
  | none => exact leafRoom_rc hg
  | some => rfl

theorem capI_tk (h : tk E own ≠ 0) : capI c E own n = 2 ^ c.B := by
  cases own with
  | none => exact absurd tk_none h
  | some => rfl

theorem capL_tk (h : tk E own ≠ 0) : capL c E own n = 2 ^ c.BL := by
  cases own with
  | none => exact absurd tk_none h
  | some => rfl

theorem capI_le (h : n ≤ 2 ^ c.B) : n ≤ capI c E own n := by
  cases own with
  | none => show n ≤ innerRoom c E n; unfold innerRoom; split <;> omega
  | some => exact h

theorem capL_le (h : n ≤ 2 ^ c.BL) : n ≤ capL c E own n := by
  cases own with
  | none => show n ≤ leafRoom c E n; unfold leafRoom; split <;> omega
  | some => exact h

theorem gone_of_eq (h : Inv (sys c E u) m O L) (he : m' = m) : Gone c E u O L m m' := ⟨by rw [he]; exact h, .of_eq he⟩

theorem Gone.trans {m'' : Mem Dat T} (hk : Kept (sys c E u) O L m m') (h : Gone c E u O L m' m'') : Gone c E u O L m m'' := ⟨h.1, hk.trans h.2⟩

theorem Kept.tail (h : Kept (sys c E u) O (r :: L) m m') : Kept (sys c E u) O L m m' := h.mono (fun _ hx => List.mem_cons_of_mem _ hx) (fun _ h => h)

theorem Kept.open (h : Kept (sys c E u) (p :: O) L m m') : Kept (sys c E u) O L m m' := h.mono (fun _ h => h) (fun _ h => List.mem_cons_of_mem _ h)

theorem Kept.new (h : Inv (sys c E u) m O L) (hp : m p = none) (x : Option (Cell Dat T)) : Kept (sys c E u) O L m (upd m p x) :=
  Kept.upd h (.inr hp) (h.fresh_notin hp) x

/-- the token of a reference only matters under the collector -/
theorem retok {p : Nat} {v : Val T} {b : Bool} {t' : Nat} (h : Inv (sys c E u) m O (⟨p, v, t, b⟩ :: L)) (ht : E.gc = true → t = t') (b' : Bool) (hb : b' = true → b = true) :
    Inv (sys c E u) m O (⟨p, v, t', b'⟩ :: L) := by
  refine h.weaken (t := t') (b := b') ?_ hb
  intro cl hc hl
  obtain ⟨c', _, hc', _, _, h3, _⟩ := h.look (r := ⟨p, v, t, b⟩) List.mem_cons_self
  have hc' : m p = some c' := hc'
  have hc : m p = some cl := hc
  rw [hc] at hc'; cases hc'
  exact (h3 hl).trans (ht (live_gc hl))

theorem newInner_out (hE : E.Fresh) (h : Inv (sys c E u) s.mem O L) :
    Out (newInner c E own n s) (fun s' a => s.mem a = none ∧ s'.mem = upd s.mem a (some ⟨1, tk E own, [], .inner (capI c E own n) none []⟩)) (fun s' => s'.mem = s.mem) := by
  cases own with
  | none =>
    refine out_mono (alloc_out hE h.finite) ?_ (fun _ h => h)
    rintro s' a ⟨h1, _, h2, _⟩
    refine ⟨h1, h2.trans ?_⟩
    rw [tk_none]; rfl
  | some e =>
    refine out_bind (alloc_out hE h.finite) ?_
    rintro s' a ⟨h1, _, h2, _⟩
    rw [bind_ok (setTok_eq (s := s') (p := a) (by rw [h2]; exact upd_self))]
    refine ⟨h1, ?_⟩
    show upd s'.mem a _ = _
    rw [h2, upd_upd]
    congr 3

theorem newLeaf_out (hE : E.Fresh) (h : Inv (sys c E u) s.mem O L) :
    Out (newLeaf c E own n s) (fun s' a => s.mem a = none ∧ s'.mem = upd s.mem a (some ⟨1, tk E own, List.replicate (capL c E own n) .raw, .leaf⟩)) (fun s' => s'.mem = s.mem) := by
  cases own with
  | none =>
    refine out_mono (alloc_out hE h.finite) ?_ (fun _ h => h)
    rintro s' a ⟨h1, _, h2, _⟩
    refine ⟨h1, h2.trans ?_⟩
    rw [tk_none]; rfl
  | some e =>
    refine out_bind (alloc_out hE h.finite) ?_
    rintro s' a ⟨h1, _, h2, _⟩
    rw [bind_ok (setTok_eq (s := s') (p := a) (by rw [h2]; exact upd_self))]
    refine ⟨h1, ?_⟩
    show upd s'.mem a _ = _
    rw [h2, upd_upd]
    congr 3

/-! ### Nodes that may be read -/

theorem at_leaf (h : Inv (sys c E u) m O L) (ha : At (sys c E u) m L p (.node (.leaf xs))) : ∃ cl, m p = some cl ∧ cl.data = .leaf ∧ Elems cl.els xs ∧ p ∉ O := by
  obtain ⟨cl, Lo, hc, _, hok, hO, _⟩ := h.kids ha
  obtain ⟨h1, _, h2, _⟩ := okD_leaf hok
  exact ⟨cl, hc, h1, h2, hO⟩

theorem at_inner (h : Inv (sys c E u) m O L) (ha : At (sys c E u) m L p (.node (.inner none Ns))) : ∃ (cl : Cell Dat T) (cap : Nat) (Lc : List (Ref (Val T))), m p = some cl ∧ cl.data = .inner cap none (Lc.map Ref.ptr) ∧
    Lc.map Ref.val = Ns.map Val.node ∧ p ∉ O ∧ ∀ x ∈ Lc, x.uniq = false ∧ At (sys c E u) m L x.ptr x.val ∧ Held (sys c E u) m L x.ptr := by
  obtain ⟨cl, Lo, hc, ho, hok, hO, hx⟩ := h.kids ha
  obtain ⟨cap, ks, h1, _, _, _, _, h2⟩ := okD_inner hok
  have ho : outsD cl.data = Lo.map Ref.ptr := ho
  rw [h1] at ho
  have ho : ks = Lo.map Ref.ptr := ho
  rw [ho] at h1
  exact ⟨cl, cap, Lo, hc, h1, h2, hO, fun x hm => (hx x hm).2⟩

theorem Elems.get {els : List (Slot T)} (h : Elems els xs) (hi : i < xs.length) : els[i]? = (xs[i]?).map .live := by
  obtain ⟨k, rfl⟩ := h
  rw [List.getElem?_append_left (by simpa using hi), List.getElem?_map]

/-- the reference of a child -/
theorem nth_ref {Lc : List (Ref (Val T))} (h : Lc.map Ref.val = Ns.map Val.node) {j : Nat} (hj : Ns[j]? = some N) : ∃ x, Lc[j]? = some x ∧ x.val = .node N := by
  have hv := congrArg (fun l => l[j]?) h
  simp only [List.getElem?_map, hj, Option.map_some, Option.map_eq_some_iff] at hv
  exact hv

theorem kid_eq {cap : Nat} {rel : Option Nat} (hc : s.mem p = some cl) (hd : cl.data = .inner cap rel ks) (hi : ks[i]? = some q) : kid p i s = .ok s q := by
  unfold kid
  rw [bind_ok (kids_eq hc hd), liftO_eq hi]

theorem setKids_eq {cap : Nat} {rel : Option Nat} {ks' : List Nat} (hc : s.mem p = some cl) (hd : cl.data = .inner cap rel ks) (hl : ks'.length ≤ cap) :
    setKids p ks' s = .ok { s with mem := upd s.mem p (some { cl with data := .inner cap rel ks' }) } () := by
  unfold setKids
  rw [bind_ok (cell_eq hc), hd]
  simp only
  rw [if_pos hl, modify_eq hc]

theorem incs_append (gc : Bool) (m : Mem Dat T) (as bs : List Nat) : incs gc (incs gc m as) bs = incs gc m (as ++ bs) := by
  unfold incs
  cases gc with
  | true => rfl
  | false => simp [List.foldl_append]

theorem incAll_eq : ∀ (ps : List Nat) (s : St Dat T), (∀ a ∈ ps, ∃ cl, s.mem a = some cl) → incAll E ps s = .ok { s with mem := incs E.gc s.mem ps } ()
  | [], s, _ => by
    unfold incAll incs
    cases E.gc <;> rfl
  | a :: ps, s, h => by
    unfold incAll
    obtain ⟨cl, hc⟩ := h a List.mem_cons_self
    rw [bind_ok (inc_eq hc), incAll_eq ps _ ?_]
    · show Res.ok { s with mem := incs E.gc (incs E.gc s.mem [a]) ps } () = _
      rw [incs_append]; rfl
    · intro b hb
      obtain ⟨cb, hcb⟩ := h b (List.mem_cons_of_mem _ hb)
      exact ⟨_, incs_some hcb⟩

/-! ### Inner nodes being filled or changed -/

/-- the open node `p` with the children `Ns` -/
structure Op (c : Cfg) (E : Env Dat T) (u : Toks E.gc) (m : Mem Dat T) (O : List Nat) (L : List (Ref (Val T))) (p : Nat) (cl : Cell Dat T) (cap : Nat) (Lo : List (Ref (Val T)))
    (Ns : List (Node T)) : Prop where
  cell : m p = some cl
  data : cl.data = .inner cap none (Lo.map Ref.ptr)
  els : cl.els = []
  rc : E.gc = false → cl.rc = 1
  capRc : E.gc = false → cap = 2 ^ c.B
  tk : cl.tok ≠ 0 → cap = 2 ^ c.B
  len : Lo.length ≤ cap
  val : Lo.map Ref.val = Ns.map Val.node
  tok : E.gc = true → ∀ x ∈ Lo, x.tok = cl.tok
  inv : Inv (sys c E u) m (p :: O) (Lo ++ L)

variable {cap : Nat} {Lo : List (Ref (Val T))}

theorem Op.length (h : Op c E u m O L p cl cap Lo Ns) : Lo.length = Ns.length := by
  have := congrArg List.length h.val
  simpa using this

theorem Op.close (h : Op c E u m O L p cl cap Lo Ns) (ht : E.gc = true → cl.tok = t) : Inv (sys c E u) m O (⟨p, .node (.inner none Ns), t, true⟩ :: L) := by
  refine Inv.close h.inv h.cell h.rc ?_ ?_ (fun hl => ht (live_gc hl)) (fun x hx c' _ hl => h.tok (live_gc hl) x hx) ?_
  · show outsD cl.data = _
    rw [h.data]; rfl
  · show okD c E.gc cl.data cl.els _ _
    rw [h.data, h.els, h.val]
    exact okD_inner' h.capRc (by rw [List.length_map]; exact h.len) (by rw [List.length_map]; exact h.length)
  · show tokD c cl.tok cl.data cl.els
    rw [h.data]
    exact h.tk

theorem Op.new (h : Inv (sys c E u) m O L) (hp : m p = none) (n : Nat) (own : Option Nat) :
    Op c E u (upd m p (some ⟨1, VecHeap.tk E own, [], .inner (capI c E own n) none []⟩)) O L p ⟨1, VecHeap.tk E own, [], .inner (capI c E own n) none []⟩ (capI c E own n) [] [] where
  cell := upd_self
  data := rfl
  els := rfl
  rc := fun _ => rfl
  capRc := capI_rc
  tk := capI_tk
  len := Nat.zero_le _
  val := rfl
  tok := fun _ _ h => by cases h
  inv := h.alloc hp _

theorem Op.mem (h : Op c E u m O L p cl cap Lo Ns) {L' : List (Ref (Val T))} (hi : Inv (sys c E u) m' (p :: O) (Lo ++ L')) (hc : m' p = m p) : Op c E u m' O L' p cl cap Lo Ns :=
  { h with inv := hi, cell := hc.trans h.cell }

/-- other children -/
theorem Op.put (h : Op c E u m O L p cl cap Lo Ns) {L' Lo' : List (Ref (Val T))} {Ns' : List (Node T)} (hi : Inv (sys c E u) m' (p :: O) (Lo' ++ L')) (hv : Lo'.map Ref.val = Ns'.map Val.node)
    (ht : E.gc = true → ∀ x ∈ Lo', x.tok = cl.tok) (hl : Lo'.length ≤ cap) :
    Op c E u (upd m' p (some { cl with data := .inner cap none (Lo'.map Ref.ptr) })) O L' p { cl with data := .inner cap none (Lo'.map Ref.ptr) } cap Lo' Ns' where
  cell := upd_self
  data := rfl
  els := h.els
  rc := h.rc
  capRc := h.capRc
  tk := h.tk
  len := hl
  val := hv
  tok := ht
  inv := hi.write List.mem_cons_self _

theorem perm_mid (A B : List (Ref (Val T))) (x : Ref (Val T)) : ((A ++ [x]) ++ B).Perm (A ++ x :: B) := by simp

/-- one more child -/
theorem Op.push (h : Op c E u s.mem O (r :: L) p cl cap Lo Ns) (hr : r.val = .node N) (ht : E.gc = true → r.tok = cl.tok) (hl : Lo.length < cap) (hn : n = Lo.length) :
    ∃ cl', putKid p n r.ptr s = .ok { s with mem := upd s.mem p (some cl') } () ∧ cl'.tok = cl.tok ∧ Op c E u (upd s.mem p (some cl')) O L p cl' cap (Lo ++ [r]) (Ns ++ [N]) ∧
      Kept (sys c E u) O (r :: L) s.mem (upd s.mem p (some cl')) := by
  refine ⟨{ cl with data := .inner cap none ((Lo ++ [r]).map Ref.ptr) }, ?_, rfl, h.put (Lo' := Lo ++ [r]) (Ns' := Ns ++ [N]) ?_ ?_ ?_ ?_, ?_⟩
  · unfold putKid
    rw [bind_ok (kids_eq h.cell h.data), if_neg (by simp [hn]), if_pos (by simp [hn]), setKids_eq h.cell h.data (by simp; omega)]
    simp
  · exact h.inv.permL (perm_mid _ _ _).symm
  · simp [h.val, hr]
  · intro hg x hx
    rcases List.mem_append.mp hx with hx | hx
    · exact h.tok hg x hx
    · rw [List.mem_singleton] at hx
      subst hx
      exact ht hg
  · simp; omega
  · exact (Kept.write h.inv _).mono (fun x hx => List.mem_append_right _ hx) (fun _ h => h)

/-- freeing the node -/
theorem Op.free (h : Op c E u s.mem O L p cl cap [] Ns) (hcl : cl.tok = VecHeap.tk E own) (hcap : cap = capI c E own n) :
    Out (freeInner c E own p n s) (fun s' _ => Gone c E u O L s.mem s'.mem) (fun _ => False) := by
  cases own with
  | none =>
    refine delInner_open (n := n) h.inv h.cell h.data h.els ?_
    rw [hcl, tk_none, hcap]
    simp [capI]
  | some e =>
    refine dealloc_open h.inv h.cell (by rw [h.els]; rfl) ?_
    rw [h.data, hcap]
    rfl

/-- copies of references to shared nodes -/
theorem dup_refs (h : Inv (sys c E u) m O L) {Lc : List (Ref (Val T))} (hx : ∀ x ∈ Lc, x.uniq = false ∧ At (sys c E u) m L x.ptr x.val ∧ Held (sys c E u) m L x.ptr) (t : Nat) :
    Inv (sys c E u) (incs E.gc m (Lc.map Ref.ptr)) O (Lc.map (fun x => { x with tok := t }) ++ L) ∧ Kept (sys c E u) O L m (incs E.gc m (Lc.map Ref.ptr)) ∧ (∀ x ∈ Lc, ∃ cl, m x.ptr = some cl) := by
  have := h.dups (ranked c E u) (Li := Lc.map fun x => { x with tok := t }) (by
    intro x hxm
    obtain ⟨y, hy, rfl⟩ := List.mem_map.mp hxm
    exact hx y hy)
  rw [List.map_map] at this
  refine ⟨this, Kept.incs h _ ?_, ?_⟩
  · intro a ha
    obtain ⟨x, hxm, rfl⟩ := List.mem_map.mp ha
    exact h.reach_notin (hx x hxm).2.1.reach
  · intro x hxm
    exact h.reach_cell (hx x hxm).2.1.reach

theorem incs_open (h : Inv (sys c E u) m (p :: O) L) {ps : List Nat} (hps : p ∉ ps) : incs E.gc m ps p = m p := by
  obtain ⟨cl, hc⟩ := h.open_alloc (List.mem_cons_self (a := p))
  rw [incs_some hc, hc, List.count_eq_zero.mpr hps]
  cases E.gc <;> rfl

/-- `do_copy_inner` to a node without children -/
theorem copyInner_out' {dst src : Nat} (h : Op c E u s.mem O L dst cl cap [] []) (ha : At (sys c E u) s.mem L src (.node (.inner none Ns))) (hn : n ≤ Ns.length) (hcap : n ≤ cap) :
    Out (doCopyInner E dst src n s) (fun s' _ => ∃ cl' Lc, cl'.tok = cl.tok ∧ Op c E u s'.mem O L dst cl' cap Lc (Ns.take n) ∧ Kept (sys c E u) O L s.mem s'.mem ∧
      ∀ cp cap' ks, s.mem src = some cp → cp.data = .inner cap' none ks → Lc.map Ref.ptr = ks.take n) (fun _ => False) := by
  have hi : Inv (sys c E u) s.mem (dst :: O) L := h.inv
  obtain ⟨cs, cp, Lc, hc, hd, hv, hO, hx⟩ := at_inner hi ha
  have hlen : Lc.length = Ns.length := by simpa using congrArg List.length hv
  have hx' : ∀ x ∈ Lc.take n, _ := fun x hm => hx x (List.mem_of_mem_take hm)
  obtain ⟨h1, h2, h3⟩ := dup_refs hi hx' cl.tok
  unfold doCopyInner
  rw [bind_ok (kids_eq hc hd), bind_ok (liftO_eq (b := (Lc.take n).map Ref.ptr) (by
    unfold slice
    rw [if_pos ⟨Nat.zero_le _, by rw [List.length_map]; omega⟩, List.map_take]; rfl))]
  rw [bind_ok (incAll_eq _ _ (by
    intro a hm
    obtain ⟨x, hxm, rfl⟩ := List.mem_map.mp hm
    exact h3 x hxm))]
  have hnot : dst ∉ (Lc.take n).map Ref.ptr := by
    intro hm
    obtain ⟨x, hxm, he⟩ := List.mem_map.mp hm
    exact hi.reach_notin (hx' x hxm).2.1.reach (by rw [he]; exact List.mem_cons_self)
  have hcell : incs E.gc s.mem ((Lc.take n).map Ref.ptr) dst = some cl := (incs_open hi hnot).trans h.cell
  rw [setKids_eq (s := { s with mem := incs E.gc s.mem ((Lc.take n).map Ref.ptr) }) hcell h.data (by simp; omega)]
  have hop := h.put (Lo' := (Lc.take n).map fun x => { x with tok := cl.tok }) (Ns' := Ns.take n) h1 (by
      simp only [List.map_map, List.map_take]
      rw [← hv]; rfl) (by
      intro _ x hm
      obtain ⟨y, _, rfl⟩ := List.mem_map.mp hm
      rfl) (by simp; omega)
  rw [List.map_map] at hop
  refine ⟨_, _, ?_, hop, ?_, ?_⟩
  · rfl
  · refine (h2.mono (fun _ h => h) (fun _ h => List.mem_cons_of_mem _ h)).trans ?_
    exact (Kept.write h1 _).mono (fun x hx => List.mem_append_right _ hx) (fun _ h => h)
  · intro cp' cap' ks hc' hd'
    rw [hc] at hc'
    cases hc'
    rw [hd] at hd'
    cases hd'
    rw [List.map_map, List.map_take]
    rfl

theorem copyInner_out {dst src : Nat} (h : Op c E u s.mem O L dst cl cap [] []) (ha : At (sys c E u) s.mem L src (.node (.inner none Ns))) (hn : n ≤ Ns.length) (hcap : n ≤ cap) :
    Out (doCopyInner E dst src n s) (fun s' _ => ∃ cl' Lc, cl'.tok = cl.tok ∧ Op c E u s'.mem O L dst cl' cap Lc (Ns.take n) ∧ Kept (sys c E u) O L s.mem s'.mem) (fun _ => False) := by
  refine out_mono (copyInner_out' h ha hn hcap) ?_ (fun _ h => h)
  rintro s' _ ⟨cl', Lc, h1, h2, h3, _⟩
  exact ⟨cl', Lc, h1, h2, h3⟩

/-- `do_copy_inner_replace` -/
theorem copyReplace_out {dst src off : Nat} (h : Op c E u s.mem O (r :: L) dst cl cap [] []) (ha : At (sys c E u) s.mem L src (.node (.inner none Ns))) (hr : r.val = .node N) (ht : E.gc = true → r.tok = cl.tok)
    (hn : n = Ns.length) (hcap : n ≤ cap) (hoff : off < n) :
    Out (doCopyInnerReplace E dst src n off r.ptr s) (fun s' _ => ∃ cl' Lc, cl'.tok = cl.tok ∧ Op c E u s'.mem O L dst cl' cap Lc (Ns.set off N) ∧ Kept (sys c E u) O L s.mem s'.mem) (fun _ => False) := by
  have hi : Inv (sys c E u) s.mem (dst :: O) (r :: L) := h.inv
  have ha' := At.mono (L' := r :: L) (fun x hx => List.mem_cons_of_mem _ hx) ha
  obtain ⟨cs, cp, Lc, hc, hd, hv, hO, hx⟩ := at_inner hi ha'
  have hlen : Lc.length = Ns.length := by simpa using congrArg List.length hv
  have hx' : ∀ x ∈ Lc.take off ++ Lc.drop (off + 1), _ := fun x hm => hx x (by
    rcases List.mem_append.mp hm with hm | hm
    · exact List.mem_of_mem_take hm
    · exact List.mem_of_mem_drop hm)
  obtain ⟨h1, h2, h3⟩ := dup_refs hi hx' cl.tok
  unfold doCopyInnerReplace
  rw [bind_ok (kids_eq hc hd), bind_ok (liftO_eq (b := Lc.map Ref.ptr) (by
    unfold slice
    rw [if_pos ⟨Nat.zero_le _, by rw [List.length_map]; omega⟩, List.drop_zero, List.take_of_length_le (by simp; omega)])), if_pos (by simp; omega)]
  rw [← List.map_take, ← List.map_drop, bind_ok (incAll_eq _ _ (by
    intro a hm
    obtain ⟨x, hxm, rfl⟩ := List.mem_map.mp hm
    exact h3 x (List.mem_append_left _ hxm)))]
  rw [bind_ok (incAll_eq (s := { s with mem := _ }) _ (by
    intro a hm
    obtain ⟨x, hxm, rfl⟩ := List.mem_map.mp hm
    obtain ⟨cx, hcx⟩ := h3 x (List.mem_append_right _ hxm)
    exact ⟨_, incs_some hcx⟩))]
  simp only [incs_append, ← List.map_append]
  have hnot : dst ∉ (Lc.take off ++ Lc.drop (off + 1)).map Ref.ptr := by
    intro hm
    obtain ⟨x, hxm, he⟩ := List.mem_map.mp hm
    exact hi.reach_notin (hx' x hxm).2.1.reach (by rw [he]; exact List.mem_cons_self)
  have hcell : incs E.gc s.mem ((Lc.take off ++ Lc.drop (off + 1)).map Ref.ptr) dst = some cl := (incs_open hi hnot).trans h.cell
  rw [setKids_eq (s := { s with mem := incs E.gc s.mem ((Lc.take off ++ Lc.drop (off + 1)).map Ref.ptr) }) hcell h.data (by simp; omega)]
  have hset : (Lc.map Ref.ptr).set off r.ptr = (((Lc.map fun x => { x with tok := cl.tok }).set off r).map Ref.ptr) := by
    rw [List.map_set, List.map_map]; rfl
  rw [hset]
  have hop := h.put (L' := L) (Lo' := (Lc.map fun x => { x with tok := cl.tok }).set off r) (Ns' := Ns.set off N) (h1.permL (by
      rw [List.set_eq_take_append_cons_drop, if_pos (by simp; omega), List.map_append, List.map_take, List.map_drop]
      simp only [List.append_assoc, List.cons_append]
      refine List.Perm.append_left _ ?_
      exact List.perm_middle)) (by
      rw [List.map_set, List.map_set, hr]
      congr 1
      rw [← hv, List.map_map]; rfl) (by
      intro hg x hm
      rcases List.mem_or_eq_of_mem_set hm with hm | rfl
      · obtain ⟨y, _, rfl⟩ := List.mem_map.mp hm
        rfl
      · exact ht hg) (by simp; omega)
  refine ⟨_, _, ?_, hop, ?_⟩
  · rfl
  refine ((Kept.tail h2).mono (fun _ h => h) (fun _ h => List.mem_cons_of_mem _ h)).trans ?_
  exact (Kept.write h1 _).mono (fun x hx => List.mem_append_right _ (List.mem_cons_of_mem _ hx)) (fun _ h => h)

/-! ### Leaves -/

/-- a finished leaf -/
theorem close_leaf (h : Inv (sys c E u) m (p :: O) L) (hc : m p = some cl) (hd : cl.data = .leaf) (hx : Elems cl.els xs) (hrc : E.gc = false → cl.rc = 1) (hl : E.gc = false → cl.els.length = 2 ^ c.BL)
    (htk : cl.tok ≠ 0 → cl.els.length = 2 ^ c.BL) (ht : E.gc = true → cl.tok = t) : Inv (sys c E u) m O (⟨p, .node (.leaf xs), t, true⟩ :: L) := by
  refine Inv.close (Lo := []) h hc hrc ?_ ?_ (fun hl => ht (live_gc hl)) (fun x hx => by cases hx) ?_
  · show outsD cl.data = _
    rw [hd]; rfl
  · show okD c E.gc cl.data cl.els _ _
    rw [hd]
    exact okD_leaf' hx hl
  · show tokD c cl.tok cl.data cl.els
    rw [hd]
    exact htk

/-- a new leaf -/
def leafCell (c : Cfg) (E : Env Dat T) (own : Option Nat) (n : Nat) (xs : List T) : Cell Dat T := ⟨1, tk E own, xs.map .live ++ List.replicate (capL c E own n - xs.length) .raw, .leaf⟩

theorem leafCell_length (h : xs.length ≤ n) (hn : n ≤ 2 ^ c.BL) : (leafCell c E own n xs).els.length = capL c E own n := by
  have := capL_le (E := E) (own := own) hn
  simp only [leafCell, List.length_append, List.length_map, List.length_replicate]
  omega

theorem close_new (h : Inv (sys c E u) m O L) (hp : m p = none) (hx : xs.length ≤ n) (hn : n ≤ 2 ^ c.BL) (ht : E.gc = true → own.getD 0 = t) :
    Inv (sys c E u) (upd m p (some (leafCell c E own n xs))) O (⟨p, .node (.leaf xs), t, true⟩ :: L) := by
  have hlen := leafCell_length (E := E) (own := own) hx hn
  refine close_leaf (h.alloc hp _) upd_self rfl ⟨_, rfl⟩ (fun _ => rfl) ?_ ?_ ?_
  · intro hg; rw [hlen]; exact capL_rc hg
  · intro hne; rw [hlen]; exact capL_tk hne
  · intro hg; exact (tk_gc hg).trans (ht hg)

theorem copyLeafN_out (hE : E.Fresh) {src allocn : Nat} (h : Inv (sys c E u) s.mem O L) (hc : s.mem src = some cl) (hx : Elems cl.els xs) (hn : n ≤ xs.length) (hna : n ≤ allocn) (hb : allocn ≤ 2 ^ c.BL) :
    Out (copyLeafN c E own allocn src n s) (fun s' q => s.mem q = none ∧ s'.mem = upd s.mem q (some (leafCell c E own allocn (xs.take n)))) (fun s' => s'.mem = s.mem) := by
  unfold copyLeafN
  refine out_bind (newLeaf_out hE h) ?_
  rintro s1 q ⟨hq, hs1⟩
  have hne : src ≠ q := by rintro rfl; rw [hc] at hq; cases hq
  have hcap := capL_le (E := E) (own := own) hb
  have hlt : (xs.take n).length = n := by rw [List.length_take]; omega
  refine out_bind (out_guard (E' := fun s' => s'.mem = s1.mem) (E := fun s' => s'.mem = s.mem) (Q := fun s' _ => s'.mem = upd s.mem q (some (leafCell c E own allocn (xs.take n)))) ?_ ?_) ?_
  · refine out_mono (uninitCopy_out (pre := []) (post := List.replicate (capL c E own allocn - n) .raw) (ys := xs.take n) hne (by rw [hs1]; exact upd_self) rfl (by rw [hs1, upd_ne hne]; exact hc)
      hlt.symm ?_ ?_) ?_ (fun _ h => h.1)
    · intro j hj
      rw [Nat.zero_add, hx.get (by omega), List.getElem?_take_of_lt hj]
    · show List.replicate _ _ = _
      rw [List.nil_append, List.replicate_append_replicate]
      congr 1
      omega
    · rintro s' _ ⟨h1, _⟩
      rw [h1, hs1, upd_upd]
      unfold leafCell
      rw [hlt]
      rfl
  · intro s' hs'
    have hq' : s'.mem q = some ⟨1, tk E own, List.replicate (capL c E own allocn) .raw, .leaf⟩ := by rw [hs', hs1]; exact upd_self
    have : freeLeaf c E own q allocn s' = .ok { s' with mem := upd s'.mem q none } () := by
      unfold freeLeaf
      refine dealloc_eq hq' ?_ rfl
      cases own <;> rfl
    rw [this]
    show upd s'.mem q none = s.mem
    rw [hs', hs1, upd_upd, upd_same hq]
  · intro s' _ hs'
    exact ⟨hq, hs'⟩

/-- `copy_leaf` -/
theorem copyLeaf_out (hE : E.Fresh) {src : Nat} (h : Inv (sys c E u) s.mem O L) (ha : At (sys c E u) s.mem L src (.node (.leaf xs))) (hn : n ≤ xs.length) (hb : n ≤ 2 ^ c.BL) (ht : E.gc = true → own.getD 0 = t) :
    Out (copyLeaf c E own src n s) (fun s' q => Inv (sys c E u) s'.mem O (⟨q, .node (.leaf (xs.take n)), t, true⟩ :: L) ∧ Kept (sys c E u) O L s.mem s'.mem)
      (fun s' => Gone c E u O L s.mem s'.mem) := by
  obtain ⟨cl, hc, _, hx, _⟩ := at_leaf h ha
  refine out_mono (copyLeafN_out hE h hc hx hn (Nat.le_refl _) hb) ?_ (fun s' he => gone_of_eq h he)
  rintro s' q ⟨hq, hs'⟩
  rw [hs']
  exact ⟨close_new h hq (by rw [List.length_take]; omega) hb ht, Kept.new h hq _⟩

/-- `copy_leaf_emplace` -/
theorem copyLeafEmplace_out (hE : E.Fresh) {src : Nat} {x : T} (h : Inv (sys c E u) s.mem O L) (ha : At (sys c E u) s.mem L src (.node (.leaf xs))) (hn : n = xs.length) (hb : n + 1 ≤ 2 ^ c.BL) :
    Out (copyLeafEmplace c E src n x s) (fun s' q => Inv (sys c E u) s'.mem O (⟨q, .node (.leaf (xs ++ [x])), 0, true⟩ :: L) ∧ Kept (sys c E u) O L s.mem s'.mem)
      (fun s' => Gone c E u O L s.mem s'.mem) := by
  obtain ⟨cl, hc, _, hx, _⟩ := at_leaf h ha
  subst hn
  unfold copyLeafEmplace
  refine out_bind (out_mono (copyLeafN_out hE h hc hx (Nat.le_refl _) (Nat.le_succ _) hb) (fun _ _ h => h) (fun s' he => gone_of_eq h he)) ?_
  rintro s' q ⟨hq, hs'⟩
  have hcap := capL_le (E := E) (own := none) hb
  have hcell : s'.mem q = some (leafCell c E none (xs.length + 1) (xs.take xs.length)) := by rw [hs']; exact upd_self
  have hels : (leafCell c E none (xs.length + 1) (xs.take xs.length)).els = xs.map Slot.live ++ Slot.raw :: List.replicate (capL c E none (xs.length + 1) - (xs.length + 1)) .raw := by
    simp only [leafCell, List.take_length]
    rw [← List.replicate_succ]
    congr 2
    omega
  rw [bind_ok (construct_eq hcell (by rw [hels]; exact get_mid _ _ _ _ (by simp)))]
  have : ({ leafCell c E none (xs.length + 1) (xs.take xs.length) with els := (leafCell c E none (xs.length + 1) (xs.take xs.length)).els.set xs.length (.live x) } : Cell Dat T) = leafCell c E none (xs.length + 1) (xs ++ [x]) := by
    rw [hels, set_mid _ _ _ _ _ (by simp)]
    unfold leafCell
    simp
  show Inv (sys c E u) (upd s'.mem q _) O _ ∧ Kept (sys c E u) O L s.mem (upd s'.mem q _)
  rw [this, hs', upd_upd]
  exact ⟨close_new h hq (by simp) hb (fun _ => rfl), Kept.new h hq _⟩

/-- a leaf of one element -/
theorem leafOf_out (hE : E.Fresh) {x : T} (h : Inv (sys c E u) s.mem O L) :
    Out (leafOf c E own x s) (fun s' q => s.mem q = none ∧ s'.mem = upd s.mem q (some (leafCell c E own 1 [x]))) (fun s' => s'.mem = s.mem) := by
  unfold leafOf
  refine out_bind (newLeaf_out hE h) ?_
  rintro s' q ⟨hq, hs'⟩
  have hcap := capL_le (E := E) (own := own) (Nat.one_le_two_pow (n := c.BL))
  have hcell : s'.mem q = some ⟨1, tk E own, List.replicate (capL c E own 1) .raw, .leaf⟩ := by rw [hs']; exact upd_self
  have hels : List.replicate (capL c E own 1) (Slot.raw (T := T)) = .raw :: List.replicate (capL c E own 1 - 1) .raw := by
    rw [← List.replicate_succ]
    congr 1
    omega
  rw [bind_ok (construct_eq hcell (by show (List.replicate _ _)[0]? = _; rw [hels]; rfl))]
  refine ⟨hq, ?_⟩
  show upd s'.mem q _ = _
  rw [hs', upd_upd]
  simp only [hels]
  rfl

end
end VecHeap
