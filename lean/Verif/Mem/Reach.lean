import Verif.Mem.Elems

/-!
# Reading shared nodes

Nodes that can be reached from references held from outside stay as they are while other nodes are built and released.
-/

namespace Mm

variable {D T V : Type}

/-- reachable from `p` -/
inductive From (S : Sys D T V) (m : Mem D T) (p : Nat) : Nat → Prop
  | here : From S m p p
  | next {a o : Nat} {c : Cell D T} : From S m p a → m a = some c → o ∈ S.outs c.data → From S m p o

/-- reachable from the references `L` -/
def Reach (S : Sys D T V) (m : Mem D T) (L : List (Ref V)) (q : Nat) : Prop := ∃ r ∈ L, From S m r.ptr q

/-- memory read at `p` gives `v` -/
def Den (S : Sys D T V) (m : Mem D T) (p : Nat) (v : V) : Prop :=
  ∃ g : Nat → V, g p = v ∧ ∀ q, From S m p q → ∃ c, m q = some c ∧ S.Ok c.data c.els ((S.outs c.data).map g) (g q)

/-- what a node stands for is determined by its contents and by what its pointers stand for, which is smaller -/
structure Ranked (S : Sys D T V) where
  rank : V → Nat
  lt : ∀ {d els vs v}, S.Ok d els vs v → ∀ u ∈ vs, rank u < rank v
  uniq : ∀ {d els vs v v'}, S.Ok d els vs v → S.Ok d els vs v' → v = v'

variable {S : Sys D T V} {m m' m'' : Mem D T} {A O : List Nat} {g : Nat → V} {L L' : List (Ref V)} {p q : Nat} {v v' : V}

theorem From.trans {a b c : Nat} (h : From S m a b) (h' : From S m b c) : From S m a c := by
  induction h' with
  | here => exact h
  | next _ hc ho ih => exact .next ih hc ho

/-- what is read is determined by memory -/
theorem Den.unique (R : Ranked S) (h : Den S m p v) (h' : Den S m p v') : v = v' := by
  obtain ⟨g, hg, h⟩ := h
  obtain ⟨g', hg', h'⟩ := h'
  have key : ∀ n q, R.rank (g q) < n → From S m p q → g q = g' q := by
    intro n
    induction n with
    | zero => intro q hr; omega
    | succ n ih =>
      intro q hr hq
      obtain ⟨c, hc, ho⟩ := h q hq
      obtain ⟨c', hc', ho'⟩ := h' q hq
      rw [hc] at hc'; cases hc'
      have : (S.outs c.data).map g = (S.outs c.data).map g' := by
        apply List.map_congr_left
        intro o hoo
        exact ih o (by have := R.lt ho (g o) (List.mem_map_of_mem hoo); omega) (.next hq hc hoo)
      rw [this] at ho
      exact R.uniq ho ho'
  rw [← hg, ← hg']
  exact key _ p (Nat.lt_succ_self _) .here

/-- the cell that is read, and its pointers -/
theorem Den.cell (h : Den S m p v) : ∃ c g', m p = some c ∧ S.Ok c.data c.els ((S.outs c.data).map g') v ∧
    ∀ o ∈ S.outs c.data, Den S m o (g' o) := by
  obtain ⟨g, hg, h⟩ := h
  obtain ⟨c, hc, ho⟩ := h p .here
  rw [hg] at ho
  refine ⟨c, g, hc, ho, ?_⟩
  intro o hoo
  refine ⟨g, rfl, ?_⟩
  intro q hq
  exact h q ((From.next .here hc hoo).trans hq)


/-- the same node, up to the count -/
def Same (c c' : Cell D T) : Prop := c'.data = c.data ∧ c'.els = c.els ∧ c'.tok = c.tok

theorem From.same (hm : ∀ q, From S m p q → ∀ c, m q = some c → ∃ c', m' q = some c' ∧ Same c c') (h : From S m p q) : From S m' p q := by
  induction h with
  | here => exact .here
  | next h1 hc ho ih =>
    obtain ⟨c', hc', hs⟩ := hm _ h1 _ hc
    exact .next ih hc' (by rw [hs.1]; exact ho)

theorem Den.same (hm : ∀ q, From S m p q → ∀ c, m q = some c → ∃ c', m' q = some c' ∧ Same c c') (h : Den S m p v) : Den S m' p v := by
  obtain ⟨g, hg, h⟩ := h
  have hback : ∀ q, From S m' p q → From S m p q := by
    intro q hq
    induction hq with
    | here => exact .here
    | next _ hc ho ih =>
      obtain ⟨c, hc', _⟩ := h _ ih
      obtain ⟨c', hc'', hs⟩ := hm _ ih _ hc'
      rw [hc] at hc''; cases hc''
      exact .next ih hc' (by rw [← hs.1]; exact ho)
  refine ⟨g, hg, ?_⟩
  intro q hq
  obtain ⟨c, hc, ho⟩ := h q (hback q hq)
  obtain ⟨c', hc', h1, h2, h3⟩ := hm q (hback q hq) c hc
  exact ⟨c', hc', by rw [h1, h2]; exact ho⟩

theorem Good.reach (h : Good S m A O g L) (hq : Reach S m L q) : q ∈ A := by
  obtain ⟨r, hr, hq⟩ := hq
  induction hq with
  | here => exact h.mem_of_ref hr
  | next _ hc ho ih => exact h.mem_of_out ih hc ho

theorem Reach.from (h : Reach S m L p) (h' : From S m p q) : Reach S m L q := by
  obtain ⟨r, hr, h⟩ := h
  exact ⟨r, hr, h.trans h'⟩

theorem Good.den (h : Good S m A O g L) (hq : Reach S m L q) : Den S m q (g q) := by
  refine ⟨g, rfl, ?_⟩
  intro x hx
  have hxa : x ∈ A := h.reach (hq.from hx)
  obtain ⟨c, hc⟩ := h.live hxa
  exact ⟨c, hc, h.ok x hxa c hc⟩

theorem Inv.den (h : Inv S m O L) {r : Ref V} (hr : r ∈ L) : Den S m r.ptr r.val := by
  obtain ⟨A, J, g, hJ, h⟩ := h
  have := h.den ⟨r, hr, .here⟩
  rwa [h.val r hr] at this

/-- nodes reachable from `L` are as before, up to the counts, and the open nodes `O` exactly so -/
def Kept (S : Sys D T V) (O : List Nat) (L : List (Ref V)) (m m' : Mem D T) : Prop :=
  (∀ q, Reach S m L q → ∀ c, m q = some c → ∃ c', m' q = some c' ∧ Same c c') ∧ ∀ a ∈ O, m' a = m a

theorem Same.rfl' {c : Cell D T} : Same c c := ⟨rfl, rfl, rfl⟩

theorem Same.trans' {a b c : Cell D T} (h : Same a b) (h' : Same b c) : Same a c :=
  ⟨h'.1.trans h.1, h'.2.1.trans h.2.1, h'.2.2.trans h.2.2⟩

theorem Kept.refl : Kept S O L m m := ⟨fun _ _ c hc => ⟨c, hc, .rfl'⟩, fun _ _ => rfl⟩

theorem Kept.of_eq (h : m' = m) : Kept S O L m m' := by rw [h]; exact .refl

theorem Kept.reach (h : Kept S O L m m') (hq : Reach S m L q) : Reach S m' L q := by
  obtain ⟨r, hr, hq⟩ := hq
  exact ⟨r, hr, hq.same fun x hx => h.1 x ⟨r, hr, hx⟩⟩

theorem Kept.trans (h : Kept S O L m m') (h' : Kept S O L m' m'') : Kept S O L m m'' := by
  refine ⟨?_, fun a ha => (h'.2 a ha).trans (h.2 a ha)⟩
  intro q hq c hc
  obtain ⟨c', hc', hs⟩ := h.1 q hq c hc
  obtain ⟨c'', hc'', hs'⟩ := h'.1 q (h.reach hq) c' hc'
  exact ⟨c'', hc'', hs.trans' hs'⟩

theorem Reach.mono (hL : ∀ r ∈ L, r ∈ L') (h : Reach S m L q) : Reach S m L' q := by
  obtain ⟨r, hr, h⟩ := h
  exact ⟨r, hL r hr, h⟩

theorem Kept.mono {O' : List Nat} (h : Kept S O' L' m m') (hL : ∀ r ∈ L, r ∈ L') (hO : ∀ a ∈ O, a ∈ O') : Kept S O L m m' :=
  ⟨fun q hq => h.1 q (hq.mono hL), fun a ha => h.2 a (hO a ha)⟩

/-- changes to open and new nodes, and to counts -/
theorem Kept.of {O' : List Nat} (h : Inv S m O' L) (X : List Nat) (hX : ∀ q ∈ X, (q ∈ O' ∨ m q = none))
    (hm : ∀ q, q ∉ X → ∀ c, m q = some c → ∃ c', m' q = some c' ∧ Same c c') (hO : ∀ a ∈ O, m' a = m a) : Kept S O L m m' := by
  obtain ⟨A, J, g, hJ, h⟩ := h
  refine ⟨?_, hO⟩
  intro q hq c hc
  have hqa := h.reach hq
  refine hm q ?_ c hc
  intro hx
  rcases hX q hx with h1 | h1
  · exact h.notin (List.mem_append_left _ h1) hqa
  · rw [h1] at hc; cases hc

theorem Kept.upd {O' : List Nat} (h : Inv S m O' L) {a : Nat} (ha : a ∈ O' ∨ m a = none) (haO : a ∉ O) (x : Option (Cell D T)) :
    Kept S O L m (upd m a x) := by
  refine Kept.of h [a] ?_ ?_ ?_
  · intro q hq
    rw [List.mem_singleton] at hq
    subst hq
    exact ha
  · intro q hq c hc
    rw [List.mem_singleton] at hq
    exact ⟨c, by rw [upd_ne hq]; exact hc, .rfl'⟩
  · intro b hb
    rw [upd_ne]
    rintro rfl
    exact haO hb

theorem Inv.notin_open {O' : List Nat} (h : Inv S m (O' ++ O) L) {a : Nat} (ha : a ∈ O') : a ∉ O := by
  intro hx
  have := h.open_nodup
  rw [List.nodup_append] at this
  exact this.2.2 a ha a hx rfl

theorem Inv.fresh_notin (h : Inv S m O L) {a : Nat} (ha : m a = none) : a ∉ O := by
  intro hx
  obtain ⟨c, hc⟩ := h.open_alloc hx
  rw [ha] at hc; cases hc

theorem Kept.incs (h : Inv S m O L) (gc : Bool) {ps : List Nat} (hps : ∀ a ∈ ps, a ∉ O) : Kept S O L m (incs gc m ps) := by
  refine ⟨?_, ?_⟩
  · intro q _ c hc
    exact ⟨_, incs_some hc, rfl, rfl, rfl⟩
  · intro a ha
    obtain ⟨c, hc⟩ := h.open_alloc ha
    rw [incs_some hc, hc]
    have : ps.count a = 0 := List.count_eq_zero.mpr fun hx => hps a hx ha
    rw [this]
    cases gc <;> rfl

/-! ### Nodes that may be read -/

/-- a node that can be reached, is owned by no transient, and reads `v` -/
structure At (S : Sys D T V) (m : Mem D T) (L : List (Ref V)) (p : Nat) (v : V) : Prop where
  reach : Reach S m L p
  den : Den S m p v
  unowned : ∀ c, m p = some c → ¬ S.live c.tok

theorem At.kept (h : At S m L p v) (hk : Kept S O L m m') : At S m' L p v where
  reach := hk.reach h.reach
  den := h.den.same fun q hq => hk.1 q (h.reach.from hq)
  unowned := by
    obtain ⟨c, g', hc, _⟩ := h.den.cell
    obtain ⟨c', hc', hs⟩ := hk.1 p h.reach c hc
    intro c'' hc''
    rw [hc'] at hc''; cases hc''
    rw [hs.2.2]
    exact h.unowned c hc

theorem At.mono (hL : ∀ r ∈ L, r ∈ L') (h : At S m L p v) : At S m L' p v := ⟨h.reach.mono hL, h.den, h.unowned⟩

theorem Inv.at (h : Inv S m O L) {r : Ref V} (hr : r ∈ L) (hl : ∀ c, m r.ptr = some c → ¬ S.live c.tok) : At S m L r.ptr r.val :=
  ⟨⟨r, hr, .here⟩, h.den hr, hl⟩

theorem Inv.at0 (h : Inv S m O L) {r : Ref V} (hr : r ∈ L) (hl : ¬ S.live r.tok) : At S m L r.ptr r.val := by
  refine h.at hr ?_
  obtain ⟨A, J, g, hJ, h⟩ := h
  intro c hc hlv
  rw [h.refTok r hr c hc hlv] at hlv
  exact hl hlv

/-- a node another one points to -/
def Held (S : Sys D T V) (m : Mem D T) (L : List (Ref V)) (p : Nat) : Prop :=
  ∃ a c, Reach S m L a ∧ m a = some c ∧ p ∈ S.outs c.data

theorem Held.kept (h : Held S m L p) (hk : Kept S O L m m') : Held S m' L p := by
  obtain ⟨a, c, ha, hc, ho⟩ := h
  obtain ⟨c', hc', hs⟩ := hk.1 a ha c hc
  exact ⟨a, c', hk.reach ha, hc', by rw [hs.1]; exact ho⟩

theorem Held.mono (hL : ∀ r ∈ L, r ∈ L') (h : Held S m L p) : Held S m L' p := by
  obtain ⟨a, c, ha, hc, ho⟩ := h
  exact ⟨a, c, ha.mono hL, hc, ho⟩

/-- the cell of a node that may be read, and its pointers -/
theorem Inv.kids (h : Inv S m O L) (ha : At S m L p v) :
    ∃ (c : Cell D T) (Lo : List (Ref V)), m p = some c ∧ S.outs c.data = Lo.map Ref.ptr ∧ S.Ok c.data c.els (Lo.map Ref.val) v ∧ p ∉ O ∧
      ∀ x ∈ Lo, x.tok = 0 ∧ x.uniq = false ∧ At S m L x.ptr x.val ∧ Held S m L x.ptr := by
  obtain ⟨c, g', hc, hok, hk⟩ := ha.den.cell
  obtain ⟨A, J, g, hJ, h⟩ := h
  have hpA := h.reach ha.reach
  refine ⟨c, (S.outs c.data).map fun o => ⟨o, g' o, 0, false⟩, hc, ?_, ?_, fun ho => h.notin (List.mem_append_left _ ho) hpA, ?_⟩
  · rw [List.map_map]; exact (List.map_id _).symm
  · rw [List.map_map]; exact hok
  · intro x hx
    obtain ⟨o, ho, rfl⟩ := List.mem_map.mp hx
    refine ⟨rfl, rfl, ⟨ha.reach.from (.next .here hc ho), hk o ho, ?_⟩, ⟨p, c, ha.reach, hc, ho⟩⟩
    intro c' hc' hlv
    exact ha.unowned c hc (h.outTok p hpA c hc o ho c' hc' hlv ▸ hlv)

/-- more references to nodes that may be read -/
theorem Inv.dups (R : Ranked S) (h : Inv S m O L) {Li : List (Ref V)} (hi : ∀ x ∈ Li, x.uniq = false ∧ At S m L x.ptr x.val ∧ Held S m L x.ptr) :
    Inv S (Mm.incs S.gc m (Li.map Ref.ptr)) O (Li ++ L) := by
  obtain ⟨A, J, g, hJ, h⟩ := h
  refine ⟨A, J, g, hJ, h.incs ?_ ?_ ?_⟩
  · intro x hx
    obtain ⟨_, h2, _⟩ := hi x hx
    exact ⟨h.reach h2.reach, h2.den.unique R (h.den h2.reach), h2.unowned⟩
  · exact fun x hx => (hi x hx).1
  · intro x hx y hy hyu he
    obtain ⟨_, _, a, c, ha, hc, ho⟩ := hi x hx
    have h1 := h.uniq y hy hyu
    have h2 := ref_out (S := S) hy (h.reach ha) hc (he ▸ ho)
    omega

end Mm
