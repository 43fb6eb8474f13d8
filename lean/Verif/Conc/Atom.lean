import Mathlib.Algebra.BigOperators.Group.List.Basic
import Verif.Conc.AtomSpec

/-!
# `refcount_atom_impl` (`atom.hpp` 21-79), with boxes that are counted, freed and reused

Any number of threads and clients' boxes; every interleaving of the steps between two accesses of shared memory.
-/

namespace Conc.Atom

variable {V : Type}

/-- `box::holder` (`box.hpp` 43-52) -/
structure Holder (V : Type) where
  rc : Nat
  val : V

/-- Where a thread is inside an operation of the atom.  `o`, `n` are `oldv`, `newv` of `update`; the argument `k` of the
load steps is the function if the load is that of `update`. -/
inductive PC (V : Type) where
  | idle
  /-- `load` (43-47): about to lock -/
  | ld0 (k : Option (V → V))
  /-- about to read `impl_.impl_` -/
  | ld1 (k : Option (V → V))
  /-- copy constructor of box: `p` read, about to `inc` -/
  | ld2 (k : Option (V → V)) (p : Nat)
  /-- about to unlock -/
  | ld3 (k : Option (V → V)) (p : Nat)
  /-- `update` (64-78): about to apply `fn` and make a box of the result -/
  | up1 (f : V → V) (o : Nat)
  /-- about to lock (70) -/
  | up2 (f : V → V) (o n : Nat)
  /-- about to compare (71) -/
  | up3 (f : V → V) (o n : Nat)
  /-- equal; `impl_ = newv` (72): about to `inc` for `aux` -/
  | up4 (f : V → V) (o n : Nat)
  /-- about to swap `aux` with `impl_` -/
  | up5 (f : V → V) (o n : Nat)
  /-- about to `dec` what `aux` now has -/
  | up6 (o n x : Nat)
  /-- `return {newv}` (73): about to `inc` -/
  | up7 (o n : Nat)
  /-- about to unlock -/
  | up8 (o n : Nat)
  /-- about to destroy `newv` -/
  | up9 (o n : Nat)
  /-- about to destroy `oldv` -/
  | up10 (o n : Nat)
  /-- not equal: about to unlock -/
  | fl1 (f : V → V) (o n : Nat)
  /-- about to destroy `newv` -/
  | fl2 (f : V → V) (o n : Nat)
  /-- about to destroy `oldv` and start again -/
  | fl3 (f : V → V) (o : Nat)
  /-- `store` (49-53), or `exchange` (55-62) if `x`: about to lock -/
  | st0 (x : Bool) (p : Nat)
  /-- about to swap -/
  | st1 (x : Bool) (p : Nat)
  /-- about to unlock -/
  | st2 (x : Bool) (p : Nat)
  /-- `store`: about to destroy `b` in the caller -/
  | st3 (p : Nat)
  /-- about to return, with a box or nothing -/
  | rt (r : Option Nat)

/-- pointers for which the thread has a counted reference in its frame -/
def PC.owned : PC V → List Nat
  | .idle | .ld0 _ | .ld1 _ | .ld2 _ _ | .rt none => []
  | .ld3 _ p | .up1 _ p | .fl3 _ p | .st0 _ p | .st1 _ p | .st2 _ p | .st3 p | .rt (some p) => [p]
  | .up2 _ o n | .up3 _ o n | .up4 _ o n | .fl1 _ o n | .fl2 _ o n | .up7 o n | .up10 o n => [o, n]
  | .up5 _ o n | .up8 o n | .up9 o n => [o, n, n]
  | .up6 o n x => [o, n, x]

/-- inside the scope of `scoped_lock_t` -/
def PC.locked : PC V → Bool
  | .ld1 _ | .ld2 _ _ | .ld3 _ _ | .up3 .. | .up4 .. | .up5 .. | .up6 .. | .up7 .. | .up8 .. | .fl1 .. | .st1 .. | .st2 .. =>
      true
  | _ => false

structure St (V : Type) where
  mem : Nat → Option (Holder V)
  /-- `impl_.impl_` (78) -/
  cell : Nat
  /-- who holds `lock_` (77); see `Spinlock` for what it is made of -/
  lock : Option Nat
  /-- boxes that the client has, anywhere -/
  pool : List Nat
  pc : List (PC V)
  hist : List (Ev V)
  /-- memory was accessed that is not a live holder -/
  fault : Bool

def upd (m : Nat → Option (Holder V)) (p : Nat) (c : Option (Holder V)) : Nat → Option (Holder V) :=
  fun q => if q = p then c else m q

/-- `inc` -/
def St.inc (s : St V) (p : Nat) : St V :=
  match s.mem p with
  | some c => { s with mem := upd s.mem p (some { c with rc := c.rc + 1 }) }
  | none => { s with fault := true }

/-- `~box` (`box.hpp` 117-123): `dec`, and delete if that was the last -/
def St.dec (s : St V) (p : Nat) : St V :=
  match s.mem p with
  | some c => { s with mem := upd s.mem p (if c.rc = 1 then none else some { c with rc := c.rc - 1 }) }
  | none => { s with fault := true }

def St.setPC (s : St V) (t : Nat) (pc : PC V) : St V := { s with pc := s.pc.set t pc }

/-- The next step of thread `t` inside an operation; `a` is the address that the heap returns, if it allocates: any
that is not in use. -/
def go (t a : Nat) (s : St V) : Option (St V) :=
  match s.pc[t]? with
  | none | some .idle => none
  | some (.ld0 k) => if s.lock = none then some ({ s with lock := some t }.setPC t (.ld1 k)) else none
  | some (.ld1 k) => some (s.setPC t (.ld2 k s.cell))
  | some (.ld2 k p) => some ((s.inc p).setPC t (.ld3 k p))
  | some (.ld3 none p) => some ({ s with lock := none }.setPC t (.rt (some p)))
  | some (.ld3 (some f) p) => some ({ s with lock := none }.setPC t (.up1 f p))
  | some (.up1 f o) =>
      match s.mem a, s.mem o with
      | none, some c => some ({ s with mem := upd s.mem a (some ⟨1, f c.val⟩) }.setPC t (.up2 f o a))
      | none, none => some { s with fault := true }
      | some _, _ => none
  | some (.up2 f o n) => if s.lock = none then some ({ s with lock := some t }.setPC t (.up3 f o n)) else none
  | some (.up3 f o n) => if o = s.cell then some (s.setPC t (.up4 f o n)) else some (s.setPC t (.fl1 f o n))
  | some (.up4 f o n) => some ((s.inc n).setPC t (.up5 f o n))
  | some (.up5 _ o n) => some ({ s with cell := n }.setPC t (.up6 o n s.cell))
  | some (.up6 o n x) => some ((s.dec x).setPC t (.up7 o n))
  | some (.up7 o n) => some ((s.inc n).setPC t (.up8 o n))
  | some (.up8 o n) => some ({ s with lock := none }.setPC t (.up9 o n))
  | some (.up9 o n) => some ((s.dec n).setPC t (.up10 o n))
  | some (.up10 o n) => some ((s.dec o).setPC t (.rt (some n)))
  | some (.fl1 f o n) => some ({ s with lock := none }.setPC t (.fl2 f o n))
  | some (.fl2 f o n) => some ((s.dec n).setPC t (.fl3 f o))
  | some (.fl3 f o) => some ((s.dec o).setPC t (.ld0 (some f)))
  | some (.st0 x p) => if s.lock = none then some ({ s with lock := some t }.setPC t (.st1 x p)) else none
  | some (.st1 x p) => some ({ s with cell := p }.setPC t (.st2 x s.cell))
  | some (.st2 true p) => some ({ s with lock := none }.setPC t (.rt (some p)))
  | some (.st2 false p) => some ({ s with lock := none }.setPC t (.st3 p))
  | some (.st3 p) => some ((s.dec p).setPC t (.rt none))
  | some (.rt none) => some ({ s with hist := s.hist ++ [Ev.ret t none] }.setPC t .idle)
  | some (.rt (some p)) =>
      match s.mem p with
      | some c => some ({ s with pool := p :: s.pool, hist := s.hist ++ [Ev.ret t (some c.val)] }.setPC t .idle)
      | none => some { s with fault := true }

/-- operations as called: boxes, not values -/
inductive Call (V : Type) where
  | load
  | store (p : Nat)
  | exchange (p : Nat)
  | update (f : V → V)

inductive Act (V : Type) where
  /-- the client makes a box of `v`; the heap returns `a` -/
  | make (a : Nat) (v : V)
  | copy (p : Nat)
  | drop (p : Nat)
  /-- `update` on an rvalue box that is `unique`: in place (`box.hpp` 163) -/
  | mutate (p : Nat) (f : V → V)
  | call (t : Nat) (c : Call V)
  | go (t a : Nat)

/-- One step; `none` if it is not possible: the client has no such box, the heap cannot return the address, the lock
is taken. -/
def step (act : Act V) (s : St V) : Option (St V) :=
  match act with
  | .make a v =>
      match s.mem a with
      | none => some { s with mem := upd s.mem a (some ⟨1, v⟩), pool := a :: s.pool }
      | some _ => none
  | .copy p => if p ∈ s.pool then some { s.inc p with pool := p :: s.pool } else none
  | .drop p => if p ∈ s.pool then some { s.dec p with pool := s.pool.erase p } else none
  | .mutate p f =>
      if p ∈ s.pool then
        match s.mem p with
        | some c => if c.rc = 1 then some { s with mem := upd s.mem p (some ⟨1, f c.val⟩) } else none
        | none => some { s with fault := true }
      else none
  | .call t c =>
      match s.pc[t]? with
      | some .idle =>
          match c with
          | .load => some ({ s with hist := s.hist ++ [Ev.inv t .load] }.setPC t (.ld0 none))
          | .update f => some ({ s with hist := s.hist ++ [Ev.inv t (.update f)] }.setPC t (.ld0 (some f)))
          | .store p =>
              if p ∈ s.pool then
                match s.mem p with
                | some h =>
                    some ({ s with pool := s.pool.erase p, hist := s.hist ++ [Ev.inv t (.store h.val)] }.setPC t (.st0 false p))
                | none => some { s with fault := true }
              else none
          | .exchange p =>
              if p ∈ s.pool then
                match s.mem p with
                | some h =>
                    some ({ s with pool := s.pool.erase p, hist := s.hist ++ [Ev.inv t (.exchange h.val)] }.setPC t (.st0 true p))
                | none => some { s with fault := true }
              else none
      | _ => none
  | .go t a => go t a s

def run : List (Act V) → St V → Option (St V)
  | [], s => some s
  | a :: rest, s => (step a s).bind (run rest)

/-- an atom constructed by thread 0 of `n` with a box of `v` at address `p` -/
def init (n p : Nat) (v : V) : St V :=
  ⟨upd (fun _ => none) p (some ⟨1, v⟩), p, none, [], List.replicate n .idle, [], false⟩

/-! ### Invariant -/

def rcv (m : Nat → Option (Holder V)) (p : Nat) : Nat := ((m p).map Holder.rc).getD 0

def valv (m : Nat → Option (Holder V)) (p : Nat) : Option V := (m p).map Holder.val

/-- 1 if equal, else 0 -/
def ind (p q : Nat) : Nat := if p = q then 1 else 0

@[simp] theorem ind_self (p : Nat) : ind p p = 1 := if_pos rfl

theorem ind_ne {p q : Nat} (h : q ≠ p) : ind p q = 0 := if_neg (Ne.symm h)

/-- references to `p` in existence -/
def St.refs (s : St V) (p : Nat) : Nat :=
  s.pool.count p + ind s.cell p + (s.pc.map fun pc => pc.owned.count p).sum

structure Inv (s : St V) : Prop where
  cnt : ∀ p, rcv s.mem p = s.refs p
  pos : ∀ p c, s.mem p = some c → 0 < c.rc
  lock : ∀ t pc, s.pc[t]? = some pc → (pc.locked = true ↔ s.lock = some t)
  nofault : s.fault = false

/-- what a thread's position means for the cell seen as one object -/
def rel (m : Nat → Option (Holder V)) (cell : Nat) : PC V → APC V → Prop
  | .idle, a => a = .idle
  | .ld0 none, a | .ld1 none, a => a = .pend .load
  | .ld0 (some f), a | .ld1 (some f), a => a = .pend (.update f)
  | .ld2 none p, a => cell = p ∧ ∃ v, valv m p = some v ∧ a = .done (some v)
  | .ld3 none p, a => ∃ v, valv m p = some v ∧ a = .done (some v)
  | .ld2 (some f) p, a => cell = p ∧ a = .pend (.update f)
  | .ld3 (some f) _, a | .up1 f _, a | .fl1 f _ _, a | .fl2 f _ _, a | .fl3 f _, a => a = .pend (.update f)
  | .up2 f o n, a | .up3 f o n, a => a = .pend (.update f) ∧ ∃ v, valv m o = some v ∧ valv m n = some (f v)
  | .up4 f o n, a | .up5 f o n, a =>
      cell = o ∧ a = .pend (.update f) ∧ ∃ v, valv m o = some v ∧ valv m n = some (f v)
  | .up6 _ n _, a | .up7 _ n, a | .up8 _ n, a | .up9 _ n, a | .up10 _ n, a => ∃ v, valv m n = some v ∧ a = .done (some v)
  | .st0 x p, a | .st1 x p, a => ∃ v, valv m p = some v ∧ a = .pend (if x then .exchange v else .store v)
  | .st2 x p, a => ∃ v, valv m p = some v ∧ a = .done (if x then some v else none)
  | .st3 _, a | .rt none, a => a = .done none
  | .rt (some p), a => ∃ v, valv m p = some v ∧ a = .done (some v)

structure Rel (s : St V) (a : Abs V) : Prop where
  inv : Inv s
  val : valv s.mem s.cell = some a.val
  hist : a.hist = s.hist
  len : a.pc.length = s.pc.length
  thr : ∀ (t : Nat) pc apc, s.pc[t]? = some pc → a.pc[t]? = some apc → rel s.mem s.cell pc apc

theorem rel_frame {m m' : Nat → Option (Holder V)} {c c' : Nat} {pc : PC V} {a : APC V} (h : rel m c pc a)
    (hv : ∀ p, p ∈ pc.owned → valv m' p = valv m p)
    (hc : pc.locked = true → c' = c ∧ valv m' c = valv m c) : rel m' c' pc a := by
  have hc1 := fun h => (hc h).1
  have hc2 := fun h => (hc h).2
  cases pc with
  | idle => exact h
  | ld0 k => cases k <;> exact h
  | ld1 k => cases k <;> exact h
  | ld2 k p =>
    have h1 := hc1 rfl
    have h2 := hc2 rfl
    cases k with
    | none =>
      obtain ⟨e, v, e1, e2⟩ := h
      subst e
      exact ⟨h1, v, h2.trans e1, e2⟩
    | some f => exact ⟨h1.trans h.1, h.2⟩
  | ld3 k p =>
    cases k with
    | none => obtain ⟨v, e1, e2⟩ := h; exact ⟨v, (hv p (by simp [PC.owned])).trans e1, e2⟩
    | some f => exact h
  | up1 | fl1 | fl2 | fl3 => exact h
  | up2 f o n | up3 f o n =>
    obtain ⟨e, v, e1, e2⟩ := h
    exact ⟨e, v, (hv o (by simp [PC.owned])).trans e1, (hv n (by simp [PC.owned])).trans e2⟩
  | up4 f o n | up5 f o n =>
    obtain ⟨e0, e, v, e1, e2⟩ := h
    exact ⟨(hc1 rfl).trans e0, e, v, (hv o (by simp [PC.owned])).trans e1, (hv n (by simp [PC.owned])).trans e2⟩
  | up6 o n x => obtain ⟨v, e1, e2⟩ := h; exact ⟨v, (hv n (by simp [PC.owned])).trans e1, e2⟩
  | up7 o n | up8 o n | up9 o n | up10 o n =>
    obtain ⟨v, e1, e2⟩ := h; exact ⟨v, (hv n (by simp [PC.owned])).trans e1, e2⟩
  | st0 x p | st1 x p | st2 x p => obtain ⟨v, e1, e2⟩ := h; exact ⟨v, (hv p (by simp [PC.owned])).trans e1, e2⟩
  | st3 p => exact h
  | rt r =>
    cases r with
    | none => exact h
    | some p => obtain ⟨v, e1, e2⟩ := h; exact ⟨v, (hv p (by simp [PC.owned])).trans e1, e2⟩

theorem sum_set {α : Type} (g : α → Nat) : ∀ {l : List α} {t : Nat} {x y : α}, l[t]? = some x →
    ((l.set t y).map g).sum + g x = (l.map g).sum + g y
  | [], t, x, y, h => by simp at h
  | z :: zs, 0, x, y, h => by
    simp at h; subst h; simp; omega
  | z :: zs, t + 1, x, y, h => by
    have := sum_set g (l := zs) (t := t) (y := y) (by simpa using h)
    simp only [List.set_cons_succ, List.map_cons, List.sum_cons]; omega

theorem le_sum_map {α : Type} (g : α → Nat) : ∀ {l : List α} {t : Nat} {x : α}, l[t]? = some x → g x ≤ (l.map g).sum
  | [], t, x, h => by simp at h
  | z :: zs, 0, x, h => by simp at h; subst h; simp
  | z :: zs, t + 1, x, h => by
    have := le_sum_map g (l := zs) (t := t) (by simpa using h)
    simp; omega

theorem le_sum_map2 {α : Type} (g : α → Nat) {l : List α} {t u : Nat} {x y : α} (hne : t ≠ u) (ht : l[t]? = some x)
    (hu : l[u]? = some y) : g x + g y ≤ (l.map g).sum := by
  induction l generalizing t u with
  | nil => simp at ht
  | cons z zs ih =>
    cases t with
    | zero =>
      cases u with
      | zero => omega
      | succ u =>
        have := le_sum_map g (l := zs) (t := u) (by simpa using hu)
        simp at ht; subst ht; simp; omega
    | succ t =>
      cases u with
      | zero =>
        have := le_sum_map g (l := zs) (t := t) (by simpa using ht)
        simp at hu; subst hu; simp; omega
      | succ u =>
        have := ih (t := t) (u := u) (by omega) (by simpa using ht) (by simpa using hu)
        simp; omega

/-! ### One thread's step

All steps that keep the memory, or `inc` or `dec` or allocate, are covered by one lemma. -/

/-- `m'` differs from `m` in what other holders of references cannot see: at `p` only counts changed, or no other
reference existed -/
theorem thread_step {s s' : St V} {a a' : Abs V} {t : Nat} {pc pc' : PC V} {apc : APC V}
    (h : Rel s a) (hpc : s.pc[t]? = some pc) (hpc' : s'.pc = s.pc.set t pc')
    (ha' : a'.pc = a.pc.set t apc) (hh : a'.hist = s'.hist)
    -- counts move with references
    (hcnt : ∀ p, rcv s'.mem p + (s.pool.count p + ind s.cell p + pc.owned.count p) =
      rcv s.mem p + (s'.pool.count p + ind s'.cell p + pc'.owned.count p))
    (hpos : ∀ p c, s'.mem p = some c → 0 < c.rc)
    -- the lock
    (hlock : pc.locked = true ∧ pc'.locked = true ∧ s'.lock = s.lock ∨
      pc.locked = true ∧ pc'.locked = false ∧ s'.lock = none ∨
      pc.locked = false ∧ pc'.locked = true ∧ s.lock = none ∧ s'.lock = some t ∨
      pc.locked = false ∧ pc'.locked = false ∧ s'.lock = s.lock)
    (hf : s'.fault = s.fault)
    -- what others see
    (hval : ∀ p, pc.owned.count p < s.refs p → valv s'.mem p = valv s.mem p)
    (hcell : s'.cell = s.cell ∨ pc.locked = true)
    (hown : valv s'.mem s'.cell = some a'.val)
    (hrel : rel s'.mem s'.cell pc' apc) :
    Rel s' a' := by
  have htl : t < s.pc.length := by
    by_contra hc
    rw [List.getElem?_eq_none (by omega)] at hpc; cases hpc
  have hother : ∀ u pcu, u ≠ t → s'.pc[u]? = some pcu → s.pc[u]? = some pcu := by
    intro u pcu hne hu
    rw [hpc', List.getElem?_set_ne (Ne.symm hne)] at hu; exact hu
  have hself : s'.pc[t]? = some pc' := by rw [hpc', List.getElem?_set_self htl]
  have hold := h.inv.lock t pc hpc
  refine ⟨⟨?_, hpos, ?_, by rw [hf]; exact h.inv.nofault⟩, hown, hh, ?_, ?_⟩
  · intro p
    have e1 := h.inv.cnt p
    have e2 := hcnt p
    have e3 := sum_set (fun pc => pc.owned.count p) (y := pc') hpc
    simp only [St.refs] at e1 ⊢
    rw [hpc']
    omega
  · intro u pcu hu
    by_cases hut : u = t
    · subst hut
      rw [hself] at hu; cases hu
      rcases hlock with ⟨b1, b2, b3⟩ | ⟨b1, b2, b3⟩ | ⟨b1, b2, b3, b4⟩ | ⟨b1, b2, b3⟩
      · rw [b3]; simp only [b2, true_iff]; exact hold.mp b1
      · simp [b2, b3]
      · simp [b2, b4]
      · rw [b3]; simp only [b2, ← hold, b1]
    · have hu' := h.inv.lock u pcu (hother u pcu hut hu)
      rw [hu']
      rcases hlock with ⟨b1, b2, b3⟩ | ⟨b1, b2, b3⟩ | ⟨b1, b2, b3, b4⟩ | ⟨b1, b2, b3⟩
      · rw [b3]
      · rw [b3, hold.mp b1]; simp [Ne.symm hut]
      · rw [b3, b4]; simp [Ne.symm hut]
      · rw [b3]
  · rw [ha', hpc']; simp [h.len]
  · intro u pcu apcu hu hau
    by_cases hut : u = t
    · subst hut
      rw [hself] at hu; cases hu
      rw [ha', List.getElem?_set_self (by rw [h.len]; exact htl)] at hau
      cases hau; exact hrel
    · rw [ha', List.getElem?_set_ne (Ne.symm hut)] at hau
      have hu0 := hother u pcu hut hu
      refine rel_frame (h.thr u pcu apcu hu0 hau) ?_ ?_
      · intro p hp
        apply hval
        have := le_sum_map2 (fun pc => pc.owned.count p) (Ne.symm hut) hpc hu0
        have hp : 0 < pcu.owned.count p := List.count_pos_iff.mpr hp
        simp only [St.refs]; omega
      · intro hl
        have hlu := (h.inv.lock u pcu hu0).mp hl
        refine ⟨?_, ?_⟩
        · rcases hcell with hc | hc
          · exact hc
          · rw [hold.mp hc] at hlu; cases hlu; exact absurd rfl hut
        · apply hval
          have := le_sum_map (fun pc => pc.owned.count s.cell) hpc
          simp only [St.refs, ind_self]; omega

theorem refs_pos {s : St V} {p : Nat} (h : Inv s) (hp : 0 < s.refs p) : ∃ c, s.mem p = some c ∧ c.rc = s.refs p := by
  have := h.cnt p
  cases hm : s.mem p with
  | none => simp [rcv, hm] at this; omega
  | some c => exact ⟨c, rfl, by simpa [rcv, hm] using this⟩

theorem owned_le {s : St V} {t : Nat} {pc : PC V} (hpc : s.pc[t]? = some pc) (p : Nat) :
    pc.owned.count p ≤ (s.pc.map fun pc => pc.owned.count p).sum := le_sum_map (fun pc => pc.owned.count p) hpc

theorem rcv_upd (m : Nat → Option (Holder V)) (p : Nat) (c : Option (Holder V)) (q : Nat) :
    rcv (upd m p c) q = if q = p then (c.map Holder.rc).getD 0 else rcv m q := by
  simp only [rcv, upd]; split <;> rfl

theorem valv_upd (m : Nat → Option (Holder V)) (p : Nat) (c : Option (Holder V)) (q : Nat) :
    valv (upd m p c) q = if q = p then c.map Holder.val else valv m q := by
  simp only [valv, upd]; split <;> rfl

/-- `inc` of something alive -/
theorem inc_spec {s : St V} {p : Nat} {c : Holder V} (hm : s.mem p = some c) :
    ∃ m', s.inc p = { s with mem := m' } ∧ (∀ q, rcv m' q = rcv s.mem q + ind p q) ∧
      (∀ q, valv m' q = valv s.mem q) ∧ (∀ q c', m' q = some c' → (∀ q c', s.mem q = some c' → 0 < c'.rc) → 0 < c'.rc) := by
  refine ⟨upd s.mem p (some { c with rc := c.rc + 1 }), by simp [St.inc, hm], ?_, ?_, ?_⟩
  · intro q; rw [rcv_upd]; split
    · rename_i h; subst h; simp [rcv, hm]
    · rename_i h; rw [ind_ne h]; rfl
  · intro q; rw [valv_upd]; split
    · rename_i h; subst h; simp [valv, hm]
    · rfl
  · intro q c' hq hp
    simp only [upd] at hq
    split at hq
    · cases hq; simp
    · exact hp q c' hq

/-- `dec` of something alive: the holder stays as it is if there are other references -/
theorem dec_spec {s : St V} {p : Nat} {c : Holder V} (hm : s.mem p = some c) (hc : 0 < c.rc) :
    ∃ m', s.dec p = { s with mem := m' } ∧ (∀ q, rcv m' q + ind p q = rcv s.mem q) ∧
      (∀ q, q ≠ p ∨ 1 < c.rc → valv m' q = valv s.mem q) ∧
      (∀ q c', m' q = some c' → (∀ q c', s.mem q = some c' → 0 < c'.rc) → 0 < c'.rc) := by
  refine ⟨upd s.mem p (if c.rc = 1 then none else some { c with rc := c.rc - 1 }), by simp [St.dec, hm], ?_, ?_, ?_⟩
  · intro q; rw [rcv_upd]; split
    · rename_i h; subst h
      simp only [rcv, hm]
      split <;> simp <;> omega
    · rename_i h; rw [ind_ne h]; rfl
  · intro q hq; rw [valv_upd]; split
    · rename_i h; subst h
      rw [if_neg (by rcases hq with hq | hq; exact absurd rfl hq; omega)]
      simp [valv, hm]
    · rfl
  · intro q c' hq hp
    simp only [upd] at hq
    split at hq
    · split at hq
      · cases hq
      · cases hq; simp; omega
    · exact hp q c' hq

/-! ### The simulation -/

theorem set_same {α : Type} {l : List α} {t : Nat} {x : α} (h : l[t]? = some x) : l.set t x = l := by
  apply List.ext_getElem?
  intro i
  by_cases hi : i = t
  · subst hi
    rw [List.getElem?_set_self (by by_contra hc; rw [List.getElem?_eq_none (by omega)] at h; cases h), h]
  · rw [List.getElem?_set_ne (Ne.symm hi)]

/-- a step of the thread that does not change what the cell as an object does -/
theorem quiet {s s' : St V} {a : Abs V} {t : Nat} {pc pc' : PC V} {apc : APC V}
    (h : Rel s a) (hpc : s.pc[t]? = some pc) (hapc : a.pc[t]? = some apc) (hpc' : s'.pc = s.pc.set t pc')
    (hh : s'.hist = s.hist)
    (hcnt : ∀ p, rcv s'.mem p + (s.pool.count p + ind s.cell p + pc.owned.count p) =
      rcv s.mem p + (s'.pool.count p + ind s'.cell p + pc'.owned.count p))
    (hpos : ∀ p c, s'.mem p = some c → 0 < c.rc)
    (hlock : pc.locked = true ∧ pc'.locked = true ∧ s'.lock = s.lock ∨
      pc.locked = true ∧ pc'.locked = false ∧ s'.lock = none ∨
      pc.locked = false ∧ pc'.locked = true ∧ s.lock = none ∧ s'.lock = some t ∨
      pc.locked = false ∧ pc'.locked = false ∧ s'.lock = s.lock)
    (hf : s'.fault = s.fault)
    (hval : ∀ p, pc.owned.count p < s.refs p → valv s'.mem p = valv s.mem p)
    (hcell : s'.cell = s.cell)
    (hrel : rel s'.mem s.cell pc' apc) :
    ∃ acts a', arun acts a = some a' ∧ Rel s' a' := by
  refine ⟨[], a, rfl, thread_step (apc := apc) h hpc hpc' (set_same hapc).symm (h.hist.trans hh.symm) hcnt hpos hlock hf
    hval (Or.inl hcell) ?_ (by rw [hcell]; exact hrel)⟩
  rw [hcell, hval, h.val]
  have := owned_le hpc s.cell
  simp only [St.refs, ind_self]; omega

/-- a step in which only the thread's position and the lock change -/
theorem quiet_move {s : St V} {a : Abs V} {t : Nat} {pc pc' : PC V} {apc : APC V} {lk : Option Nat}
    (h : Rel s a) (hpc : s.pc[t]? = some pc) (hapc : a.pc[t]? = some apc)
    (hown : pc'.owned = pc.owned)
    (hlock : pc.locked = true ∧ pc'.locked = true ∧ lk = s.lock ∨
      pc.locked = true ∧ pc'.locked = false ∧ lk = none ∨
      pc.locked = false ∧ pc'.locked = true ∧ s.lock = none ∧ lk = some t ∨
      pc.locked = false ∧ pc'.locked = false ∧ lk = s.lock)
    (hrel : rel s.mem s.cell pc' apc) :
    ∃ acts a', arun acts a = some a' ∧ Rel ({ s with lock := lk }.setPC t pc') a' :=
  quiet h hpc hapc rfl rfl (fun p => by simp only [St.setPC, hown]) h.inv.pos hlock rfl (fun _ _ => rfl) rfl hrel

/-- a step that increments the count of something alive -/
theorem quiet_inc {s : St V} {a : Abs V} {t : Nat} {pc pc' : PC V} {apc : APC V} {p : Nat}
    (h : Rel s a) (hpc : s.pc[t]? = some pc) (hapc : a.pc[t]? = some apc)
    (hlive : 0 < s.refs p) (hown : ∀ q, pc'.owned.count q = pc.owned.count q + ind p q)
    (hlock : pc'.locked = pc.locked)
    (hrel : ∀ m, (∀ q, valv m q = valv s.mem q) → rel m s.cell pc' apc) :
    ∃ acts a', arun acts a = some a' ∧ Rel ((s.inc p).setPC t pc') a' := by
  obtain ⟨c, hm, -⟩ := refs_pos h.inv hlive
  obtain ⟨m, e, h1, h2, h3⟩ := inc_spec hm
  rw [e]
  refine quiet h hpc hapc rfl rfl ?_ (fun q c' hq => h3 q c' hq h.inv.pos) ?_ rfl (fun q _ => h2 q) rfl (hrel m h2)
  · intro q
    have := h1 q
    simp only [St.setPC, hown]; omega
  · simp only [St.setPC, hlock]
    cases pc.locked <;> simp

/-- a step that gives up a counted reference -/
theorem quiet_dec {s : St V} {a : Abs V} {t : Nat} {pc pc' : PC V} {apc : APC V} {p : Nat}
    (h : Rel s a) (hpc : s.pc[t]? = some pc) (hapc : a.pc[t]? = some apc)
    (hown : ∀ q, pc'.owned.count q + ind p q = pc.owned.count q)
    (hlock : pc'.locked = pc.locked)
    (hrel : ∀ m, (∀ q, q ∈ pc'.owned → valv m q = valv s.mem q) → rel m s.cell pc' apc) :
    ∃ acts a', arun acts a = some a' ∧ Rel ((s.dec p).setPC t pc') a' := by
  have hp := hown p
  have hle := owned_le hpc p
  rw [ind_self] at hp
  have hlive : 0 < s.refs p := by simp only [St.refs]; omega
  obtain ⟨c, hm, hc⟩ := refs_pos h.inv hlive
  obtain ⟨m, e, h1, h2, h3⟩ := dec_spec hm (by omega)
  rw [e]
  refine quiet h hpc hapc rfl rfl ?_ (fun q c' hq => h3 q c' hq h.inv.pos) ?_ rfl ?_ rfl (hrel m ?_)
  · intro q
    have := h1 q
    have := hown q
    simp only [St.setPC]; omega
  · simp only [St.setPC, hlock]
    cases pc.locked <;> simp
  · intro q hq
    apply h2
    by_cases hqp : q = p
    · subst hqp; right; omega
    · exact Or.inl hqp
  · intro q hq
    apply h2
    by_cases hqp : q = p
    · subst hqp
      right
      have := List.count_pos_iff.mpr hq
      simp only [St.refs] at hc; omega
    · exact Or.inl hqp

theorem get_apc {s : St V} {a : Abs V} (h : Rel s a) {t : Nat} {pc : PC V} (hpc : s.pc[t]? = some pc) :
    ∃ apc, a.pc[t]? = some apc ∧ rel s.mem s.cell pc apc := by
  have htl : t < s.pc.length := by
    by_contra hc
    rw [List.getElem?_eq_none (by omega)] at hpc; cases hpc
  have hl : t < a.pc.length := by rw [h.len]; exact htl
  exact ⟨a.pc[t], List.getElem?_eq_getElem hl, h.thr t pc _ hpc (List.getElem?_eq_getElem hl)⟩

theorem cell_live {s : St V} : 0 < s.refs s.cell := by simp only [St.refs, ind_self]; omega

theorem owned_live {s : St V} {t : Nat} {pc : PC V} (hpc : s.pc[t]? = some pc) {p : Nat} (hp : p ∈ pc.owned) :
    0 < s.refs p := by
  have := owned_le hpc p
  have := List.count_pos_iff.mpr hp
  simp only [St.refs]; omega

theorem count_cons' (p q : Nat) (l : List Nat) : (p :: l).count q = l.count q + ind p q := by
  rw [List.count_cons]
  congr 1
  by_cases h : q = p
  · subst h; simp
  · simp [ind_ne h, Ne.symm h]

theorem go_sim {s s' : St V} {a : Abs V} {t al : Nat} (h : Rel s a) (hs : go t al s = some s') :
    ∃ acts a', arun acts a = some a' ∧ Rel s' a' := by
  unfold go at hs
  cases hpc : s.pc[t]? with
  | none => rw [hpc] at hs; cases hs
  | some pc =>
    rw [hpc] at hs
    obtain ⟨apc, hapc, hr⟩ := get_apc h hpc
    cases pc with
    | idle => cases hs
    | ld0 k =>
      simp only at hs
      split at hs
      · rename_i hl; cases hs
        refine quiet_move h hpc hapc rfl (Or.inr (Or.inr (Or.inl ⟨rfl, rfl, hl, rfl⟩))) ?_
        cases k <;> exact hr
      · cases hs
    | ld1 k =>
      cases hs
      cases k with
      | some f =>
        exact quiet_move h hpc hapc rfl (Or.inl ⟨rfl, rfl, rfl⟩) ⟨rfl, hr⟩
      | none =>
        -- the load happens here
        have hr' : apc = .pend .load := hr
        subst hr'
        refine ⟨[.lin t], { a with pc := a.pc.set t (.done (some a.val)) }, by simp [arun, astep, hapc, Op.apply], ?_⟩
        refine thread_step h hpc rfl rfl h.hist (fun p => by simp [St.setPC, PC.owned]) h.inv.pos
          (Or.inl ⟨rfl, rfl, rfl⟩) rfl (fun _ _ => rfl) (Or.inl rfl) h.val ⟨rfl, _, h.val, rfl⟩
    | ld2 k p =>
      cases hs
      have hc : s.cell = p := by
        cases k
        · exact hr.1
        · exact hr.1
      refine quiet_inc h hpc hapc (by rw [← hc]; exact cell_live) ?_ rfl ?_
      · intro q; simp only [PC.owned, count_cons']
      · intro m hm
        cases k with
        | none =>
          obtain ⟨e, v, e1, e2⟩ := hr
          exact ⟨v, (hm p).trans e1, e2⟩
        | some f => exact hr.2
    | ld3 k p =>
      cases k with
      | none => cases hs; exact quiet_move h hpc hapc rfl (Or.inr (Or.inl ⟨rfl, rfl, rfl⟩)) hr
      | some f => cases hs; exact quiet_move h hpc hapc rfl (Or.inr (Or.inl ⟨rfl, rfl, rfl⟩)) hr
    | up1 f o =>
      simp only at hs
      obtain ⟨c, hm, -⟩ := refs_pos h.inv (owned_live hpc (p := o) (by simp [PC.owned]))
      rw [hm] at hs
      cases ha : s.mem al with
      | some c' => rw [ha] at hs; cases hs
      | none =>
        rw [ha] at hs
        cases hs
        have hne : o ≠ al := by rintro rfl; rw [ha] at hm; cases hm
        have hz : s.refs al = 0 := by rw [← h.inv.cnt al]; simp [rcv, ha]
        refine quiet h hpc hapc rfl rfl ?_ ?_ (Or.inr (Or.inr (Or.inr ⟨rfl, rfl, rfl⟩))) rfl ?_ rfl ?_
        · intro q
          simp only [St.setPC, rcv_upd, PC.owned, count_cons', List.count_nil]
          split
          · rename_i hq; subst hq
            have := h.inv.cnt q
            simp; omega
          · rename_i hq; have := ind_ne hq; omega
        · intro q c' hq
          simp only [St.setPC, upd] at hq
          split at hq
          · cases hq; simp
          · exact h.inv.pos q c' hq
        · intro q hq
          have hne' : q ≠ al := by rintro rfl; omega
          simp only [St.setPC, valv_upd, if_neg hne']
        · refine ⟨hr, c.val, ?_, ?_⟩
          · simp only [St.setPC, valv_upd, if_neg hne]; simp [valv, hm]
          · simp [St.setPC, valv_upd]
    | up2 f o n =>
      simp only at hs
      split at hs
      · rename_i hl; cases hs
        exact quiet_move h hpc hapc rfl (Or.inr (Or.inr (Or.inl ⟨rfl, rfl, hl, rfl⟩))) hr
      · cases hs
    | up3 f o n =>
      simp only at hs
      split at hs
      · rename_i hc
        cases hs
        exact quiet_move h hpc hapc rfl (Or.inl ⟨rfl, rfl, rfl⟩) ⟨hc.symm, hr⟩
      · cases hs
        exact quiet_move h hpc hapc rfl (Or.inl ⟨rfl, rfl, rfl⟩) hr.1
    | up4 f o n =>
      cases hs
      refine quiet_inc h hpc hapc (owned_live hpc (by simp [PC.owned])) ?_ rfl ?_
      · intro q; simp only [PC.owned, count_cons']; omega
      · intro m hm
        obtain ⟨e0, e, v, e1, e2⟩ := hr
        exact ⟨e0, e, v, (hm o).trans e1, (hm n).trans e2⟩
    | up5 f o n =>
      cases hs
      -- the update happens here
      obtain ⟨e0, e, v, e1, e2⟩ := hr
      subst e
      have hv : v = a.val := by
        have := h.val
        rw [e0, e1] at this
        exact Option.some.inj this
      subst hv
      refine ⟨[.lin t], { a with val := f a.val, pc := a.pc.set t (.done (some (f a.val))) },
        by simp [arun, astep, hapc, Op.apply], ?_⟩
      refine thread_step h hpc rfl rfl h.hist ?_ h.inv.pos
          (Or.inl ⟨rfl, rfl, rfl⟩) rfl (fun _ _ => rfl) (Or.inr rfl) e2 ⟨_, e2, rfl⟩
      intro p
      simp only [St.setPC, PC.owned, count_cons', List.count_nil]
      omega
    | up6 o n x =>
      cases hs
      refine quiet_dec h hpc hapc ?_ rfl ?_
      · intro q; simp only [PC.owned, count_cons', List.count_nil]; omega
      · intro m hm
        obtain ⟨v, e1, e2⟩ := hr
        exact ⟨v, (hm n (by simp [PC.owned])).trans e1, e2⟩
    | up7 o n =>
      cases hs
      refine quiet_inc h hpc hapc (owned_live hpc (by simp [PC.owned])) ?_ rfl ?_
      · intro q; simp only [PC.owned, count_cons']; omega
      · intro m hm
        obtain ⟨v, e1, e2⟩ := hr
        exact ⟨v, (hm n).trans e1, e2⟩
    | up8 o n => cases hs; exact quiet_move h hpc hapc rfl (Or.inr (Or.inl ⟨rfl, rfl, rfl⟩)) hr
    | up9 o n =>
      cases hs
      refine quiet_dec h hpc hapc ?_ rfl ?_
      · intro q; simp only [PC.owned, count_cons', List.count_nil]; omega
      · intro m hm
        obtain ⟨v, e1, e2⟩ := hr
        exact ⟨v, (hm n (by simp [PC.owned])).trans e1, e2⟩
    | up10 o n =>
      cases hs
      refine quiet_dec h hpc hapc ?_ rfl ?_
      · intro q; simp only [PC.owned, count_cons', List.count_nil]
      · intro m hm
        obtain ⟨v, e1, e2⟩ := hr
        exact ⟨v, (hm n (by simp [PC.owned])).trans e1, e2⟩
    | fl1 f o n => cases hs; exact quiet_move h hpc hapc rfl (Or.inr (Or.inl ⟨rfl, rfl, rfl⟩)) hr
    | fl2 f o n =>
      cases hs
      refine quiet_dec h hpc hapc ?_ rfl (fun _ _ => hr)
      intro q; simp only [PC.owned, count_cons', List.count_nil]; omega
    | fl3 f o =>
      cases hs
      refine quiet_dec h hpc hapc ?_ rfl (fun _ _ => hr)
      intro q; simp only [PC.owned, count_cons']
    | st0 x p =>
      simp only at hs
      split at hs
      · rename_i hl; cases hs
        exact quiet_move h hpc hapc rfl (Or.inr (Or.inr (Or.inl ⟨rfl, rfl, hl, rfl⟩))) hr
      · cases hs
    | st1 x p =>
      cases hs
      -- the store or exchange happens here
      obtain ⟨v, e1, e2⟩ := hr
      subst e2
      refine ⟨[.lin t], { a with val := v, pc := a.pc.set t (.done (if x then some a.val else none)) }, ?_, ?_⟩
      · cases x <;> simp [arun, astep, hapc, Op.apply]
      · refine thread_step h hpc rfl rfl h.hist ?_ h.inv.pos
          (Or.inl ⟨rfl, rfl, rfl⟩) rfl (fun _ _ => rfl) (Or.inr rfl) e1 ⟨_, h.val, rfl⟩
        intro q
        simp only [St.setPC, PC.owned, count_cons', List.count_nil]
        omega
    | st2 x p =>
      obtain ⟨v, e1, e2⟩ := hr
      cases x with
      | true => cases hs; exact quiet_move h hpc hapc rfl (Or.inr (Or.inl ⟨rfl, rfl, rfl⟩)) ⟨v, e1, e2⟩
      | false => cases hs; exact quiet_move h hpc hapc rfl (Or.inr (Or.inl ⟨rfl, rfl, rfl⟩)) e2
    | st3 p =>
      cases hs
      refine quiet_dec h hpc hapc ?_ rfl (fun _ _ => hr)
      intro q; simp only [PC.owned, count_cons', List.count_nil]
    | rt r =>
      cases r with
      | none =>
        cases hs
        have hr' : apc = .done none := hr
        subst hr'
        refine ⟨[.ret t], { a with pc := a.pc.set t .idle, hist := a.hist ++ [.ret t none] },
          by simp [arun, astep, hapc], ?_⟩
        exact thread_step h hpc rfl rfl (by simp [St.setPC, h.hist]) (fun p => by simp [St.setPC, PC.owned]) h.inv.pos
          (Or.inr (Or.inr (Or.inr ⟨rfl, rfl, rfl⟩))) rfl (fun _ _ => rfl) (Or.inl rfl) h.val rfl
      | some p =>
        obtain ⟨v, e1, e2⟩ := hr
        subst e2
        simp only at hs
        cases hm : s.mem p with
        | none => simp [valv, hm] at e1
        | some c =>
          rw [hm] at hs
          cases hs
          have hcv : c.val = v := by simpa [valv, hm] using e1
          refine ⟨[.ret t], { a with pc := a.pc.set t .idle, hist := a.hist ++ [.ret t (some v)] },
            by simp [arun, astep, hapc], ?_⟩
          refine thread_step h hpc rfl rfl (by simp [St.setPC, h.hist, hcv]) ?_ h.inv.pos
            (Or.inr (Or.inr (Or.inr ⟨rfl, rfl, rfl⟩))) rfl (fun _ _ => rfl) (Or.inl rfl) h.val rfl
          intro q
          simp only [St.setPC, PC.owned, count_cons', List.count_nil]; omega

/-- a step of the client: boxes change, the atom does not -/
theorem client_step {s : St V} {a : Abs V} {m : Nat → Option (Holder V)} {pool : List Nat} (h : Rel s a)
    (hcnt : ∀ p, rcv m p + s.pool.count p = rcv s.mem p + pool.count p)
    (hpos : ∀ p c, m p = some c → 0 < c.rc)
    (hval : ∀ p, s.pool.count p < s.refs p → valv m p = valv s.mem p) :
    Rel { s with mem := m, pool := pool } a := by
  refine ⟨⟨?_, hpos, h.inv.lock, h.inv.nofault⟩, ?_, h.hist, h.len, ?_⟩
  · intro p
    have := h.inv.cnt p
    have := hcnt p
    simp only [St.refs] at *; omega
  · simp only
    rw [hval, h.val]
    simp only [St.refs, ind_self]; omega
  · intro t pc apc hpc hapc
    refine rel_frame (h.thr t pc apc hpc hapc) ?_ ?_
    · intro p hp
      apply hval
      have := owned_le (s := s) hpc p
      have := List.count_pos_iff.mpr hp
      simp only [St.refs]; omega
    · intro _
      refine ⟨rfl, hval _ ?_⟩
      simp only [St.refs, ind_self]; omega

theorem erase_count {l : List Nat} {p : Nat} (hp : p ∈ l) (q : Nat) :
    (l.erase p).count q + ind p q = l.count q := by
  have := List.count_pos_iff.mpr hp
  by_cases h : q = p
  · subst h; rw [List.count_erase_self]; simp; omega
  · rw [List.count_erase_of_ne h, ind_ne h]; rfl

theorem pool_live {s : St V} {p : Nat} (hp : p ∈ s.pool) : 0 < s.refs p := by
  have := List.count_pos_iff.mpr hp
  simp only [St.refs]; omega

theorem step_sim {s s' : St V} {a : Abs V} {act : Act V} (h : Rel s a) (hs : step act s = some s') :
    ∃ acts a', arun acts a = some a' ∧ Rel s' a' := by
  cases act with
  | go t al => exact go_sim h hs
  | make p v =>
    simp only [step] at hs
    cases hm : s.mem p with
    | some c => rw [hm] at hs; cases hs
    | none =>
      rw [hm] at hs; cases hs
      have hz : s.refs p = 0 := by rw [← h.inv.cnt p]; simp [rcv, hm]
      refine ⟨[], a, rfl, client_step h ?_ ?_ ?_⟩
      · intro q
        rw [rcv_upd, count_cons']
        split
        · rename_i hq; subst hq
          have := h.inv.cnt q
          simp; omega
        · rename_i hq; have := ind_ne hq; omega
      · intro q c hq
        simp only [upd] at hq
        split at hq
        · cases hq; simp
        · exact h.inv.pos q c hq
      · intro q hq
        have hne : q ≠ p := by rintro rfl; omega
        rw [valv_upd, if_neg hne]
  | copy p =>
    simp only [step] at hs
    split at hs
    · rename_i hp
      cases hs
      obtain ⟨c, hm, -⟩ := refs_pos h.inv (pool_live hp)
      obtain ⟨m, e, h1, h2, h3⟩ := inc_spec hm
      refine ⟨[], a, rfl, ?_⟩
      rw [e]
      refine client_step (s := s) h ?_ (fun q c' hq => h3 q c' hq h.inv.pos) (fun q _ => h2 q)
      intro q
      have := h1 q
      rw [count_cons']; simp only at this ⊢; omega
    · cases hs
  | drop p =>
    simp only [step] at hs
    split at hs
    · rename_i hp
      cases hs
      obtain ⟨c, hm, hc⟩ := refs_pos h.inv (pool_live hp)
      obtain ⟨m, e, h1, h2, h3⟩ := dec_spec hm (h.inv.pos _ _ hm)
      refine ⟨[], a, rfl, ?_⟩
      rw [e]
      refine client_step (s := s) h ?_ (fun q c' hq => h3 q c' hq h.inv.pos) ?_
      · intro q
        have := h1 q
        have := erase_count hp q
        simp only at *; omega
      · intro q hq
        apply h2
        by_cases hqp : q = p
        · subst hqp
          have := List.count_pos_iff.mpr hp
          right; omega
        · exact Or.inl hqp
    · cases hs
  | mutate p f =>
    simp only [step] at hs
    split at hs
    · rename_i hp
      obtain ⟨c, hm, hc⟩ := refs_pos h.inv (pool_live hp)
      rw [hm] at hs
      simp only at hs
      split at hs
      · rename_i h1
        cases hs
        refine ⟨[], a, rfl, client_step (pool := s.pool) h ?_ ?_ ?_⟩
        · intro q
          rw [rcv_upd]
          split
          · rename_i hq; subst hq; simp [rcv, hm, h1]
          · rfl
        · intro q c' hq
          simp only [upd] at hq
          split at hq
          · cases hq; simp
          · exact h.inv.pos q c' hq
        · intro q hq
          have hne : q ≠ p := by
            rintro rfl
            have := List.count_pos_iff.mpr hp
            omega
          rw [valv_upd, if_neg hne]
      · cases hs
    · cases hs
  | call t c =>
    simp only [step] at hs
    split at hs
    · rename_i hpc
      obtain ⟨apc, hapc, hr⟩ := get_apc h hpc
      have hr' : apc = .idle := hr
      subst hr'
      cases c with
      | load =>
        cases hs
        exact ⟨[.inv t .load], { a with pc := a.pc.set t (.pend .load), hist := a.hist ++ [.inv t .load] },
          by simp [arun, astep, hapc],
          thread_step h hpc rfl rfl (by simp [St.setPC, h.hist]) (fun p => by simp [St.setPC, PC.owned]) h.inv.pos
            (Or.inr (Or.inr (Or.inr ⟨rfl, rfl, rfl⟩))) rfl (fun _ _ => rfl) (Or.inl rfl) h.val rfl⟩
      | update f =>
        cases hs
        exact ⟨[.inv t (.update f)], { a with pc := a.pc.set t (.pend (.update f)), hist := a.hist ++ [.inv t (.update f)] },
          by simp [arun, astep, hapc],
          thread_step h hpc rfl rfl (by simp [St.setPC, h.hist]) (fun p => by simp [St.setPC, PC.owned]) h.inv.pos
            (Or.inr (Or.inr (Or.inr ⟨rfl, rfl, rfl⟩))) rfl (fun _ _ => rfl) (Or.inl rfl) h.val rfl⟩
      | store p =>
        simp only at hs
        split at hs
        · rename_i hp
          obtain ⟨c, hm, hc⟩ := refs_pos h.inv (pool_live hp)
          rw [hm] at hs
          cases hs
          refine ⟨[.inv t (.store c.val)],
            { a with pc := a.pc.set t (.pend (.store c.val)), hist := a.hist ++ [.inv t (.store c.val)] },
            by simp [arun, astep, hapc],
            thread_step h hpc rfl rfl (by simp [St.setPC, h.hist]) ?_ h.inv.pos
              (Or.inr (Or.inr (Or.inr ⟨rfl, rfl, rfl⟩))) rfl (fun _ _ => rfl) (Or.inl rfl) h.val
              ⟨c.val, by simp [St.setPC, valv, hm], rfl⟩⟩
          intro q
          have := erase_count hp q
          simp only [St.setPC, PC.owned, count_cons', List.count_nil]; omega
        · cases hs
      | exchange p =>
        simp only at hs
        split at hs
        · rename_i hp
          obtain ⟨c, hm, hc⟩ := refs_pos h.inv (pool_live hp)
          rw [hm] at hs
          cases hs
          refine ⟨[.inv t (.exchange c.val)],
            { a with pc := a.pc.set t (.pend (.exchange c.val)), hist := a.hist ++ [.inv t (.exchange c.val)] },
            by simp [arun, astep, hapc],
            thread_step h hpc rfl rfl (by simp [St.setPC, h.hist]) ?_ h.inv.pos
              (Or.inr (Or.inr (Or.inr ⟨rfl, rfl, rfl⟩))) rfl (fun _ _ => rfl) (Or.inl rfl) h.val
              ⟨c.val, by simp [St.setPC, valv, hm], rfl⟩⟩
          intro q
          have := erase_count hp q
          simp only [St.setPC, PC.owned, count_cons', List.count_nil]; omega
        · cases hs
    · cases hs

theorem run_sim : ∀ (sched : List (Act V)) {s s' : St V} {a : Abs V}, Rel s a → run sched s = some s' →
    ∃ acts a', arun acts a = some a' ∧ Rel s' a'
  | [], s, s', a, h, hr => by cases hr; exact ⟨[], a, rfl, h⟩
  | x :: rest, s, s', a, h, hr => by
    simp only [run, Option.bind_eq_some_iff] at hr
    obtain ⟨m, h1, h2⟩ := hr
    obtain ⟨acts1, a1, e1, r1⟩ := step_sim h h1
    obtain ⟨acts2, a2, e2, r2⟩ := run_sim rest r1 h2
    exact ⟨acts1 ++ acts2, a2, by rw [arun_append, e1]; exact e2, r2⟩

theorem init_rel (n p : Nat) (v : V) : Rel (init n p v) ⟨v, List.replicate n .idle, []⟩ := by
  have hidle : ∀ (t : Nat) pc, (init n p v).pc[t]? = some pc → pc = .idle := by
    intro t pc h
    simp only [init, List.getElem?_replicate] at h
    split at h
    · cases h; rfl
    · cases h
  refine ⟨⟨?_, ?_, ?_, rfl⟩, ?_, rfl, by simp [init], ?_⟩
  · intro q
    simp only [init, rcv_upd, St.refs, List.map_replicate, PC.owned, List.count_nil, List.sum_replicate]
    by_cases hq : q = p
    · subst hq; simp
    · rw [if_neg hq, ind_ne hq]; simp [rcv]
  · intro q c hq
    simp only [init, upd] at hq
    split at hq
    · cases hq; simp
    · cases hq
  · intro t pc h
    rw [hidle t pc h]; simp [PC.locked, init]
  · simp [init, valv_upd]
  · intro t pc apc h1 h2
    rw [hidle t pc h1]
    simp only [List.getElem?_replicate] at h2
    split at h2
    · cases h2; rfl
    · cases h2

/-- C31, reference counts: whatever the threads do, the calls and returns they see are those of one mutable cell. -/
theorem C31_refcount_linearizable {n p : Nat} {v : V} {sched : List (Act V)} {s : St V}
    (h : run sched (init n p v) = some s) : Linearizable n v s.hist := by
  obtain ⟨acts, a, e, r⟩ := run_sim sched (init_rel n p v) h
  exact ⟨acts, a, e, r.hist⟩

/-- C31, C33, C38: no access to freed memory; every box's count is the number of its references, and so a box is freed
exactly when the last is gone. -/
theorem C31_refcount_memory {n p : Nat} {v : V} {sched : List (Act V)} {s : St V}
    (h : run sched (init n p v) = some s) :
    s.fault = false ∧ ∀ q, (s.refs q = 0 ↔ s.mem q = none) ∧ ∀ c, s.mem q = some c → c.rc = s.refs q := by
  obtain ⟨acts, a, e, r⟩ := run_sim sched (init_rel n p v) h
  refine ⟨r.inv.nofault, fun q => ⟨⟨fun hz => ?_, fun hm => ?_⟩, fun c hm => ?_⟩⟩
  · cases hm : s.mem q with
    | none => rfl
    | some c =>
      have := r.inv.pos q c hm
      have := r.inv.cnt q
      simp [rcv, hm] at this; omega
  · have := r.inv.cnt q
    simpa [rcv, hm] using this.symm
  · have := r.inv.cnt q
    simpa [rcv, hm] using this

/-- C31: no update is lost: when only updates were called and all have returned, the atom has the result of applying
the functions of all of them, each once, in some order. -/
theorem C31_refcount_updates {n p : Nat} {v : V} {sched : List (Act V)} {s : St V}
    (h : run sched (init n p v) = some s) (hq : ∀ pc ∈ s.pc, pc = .idle) (hu : ∀ e ∈ s.hist, e.onlyUpdate = true) :
    ∃ fs : List (V → V), fs.Perm (invoked s.hist) ∧
      (s.mem s.cell).map Holder.val = some (fs.foldl (fun x f => f x) v) := by
  obtain ⟨acts, a, e, r⟩ := run_sim sched (init_rel n p v) h
  have hv := r.val
  rw [valv] at hv
  rw [hv, ← r.hist]
  have hidle : ∀ apc ∈ a.pc, apc = .idle := by
    intro apc hapc
    obtain ⟨t, ht, rfl⟩ := List.getElem_of_mem hapc
    have hts : t < s.pc.length := by rw [← r.len]; exact ht
    have := r.thr t _ _ (List.getElem?_eq_getElem hts) (List.getElem?_eq_getElem ht)
    rw [hq _ (List.getElem_mem hts)] at this
    exact this
  obtain ⟨fs, h1, h2⟩ := updates_applied e hidle (by rw [r.hist]; exact hu)
  exact ⟨fs, h1, by rw [h2]⟩

/-! ### A contended update

Thread 0 starts an update and reads; thread 1 exchanges; thread 0 finds another pointer, and tries again. -/

def demo : List (Act Nat) :=
  [.make 8 10, .call 0 (.update (· + 1)), .call 1 (.exchange 8)] ++
  List.replicate 5 (.go 0 9) ++ List.replicate 4 (.go 1 0) ++ List.replicate 20 (.go 0 9)

example : (run demo (init 2 7 5)).map (fun s => (valv s.mem s.cell, s.pool, s.hist.length, s.lock)) =
    some (some 11, [9, 7], 4, none) := by decide

/-- two updates, all hypotheses of `C31_refcount_updates` -/
example : (run ([.call 0 (.update (· + 1)), .call 1 (.update (· * 2))] ++ List.replicate 5 (.go 0 1) ++
      List.replicate 15 (.go 1 2) ++ List.replicate 20 (.go 0 1)) (init 2 7 5)).map
      (fun s => (valv s.mem s.cell, s.hist.all Ev.onlyUpdate, s.pc.all fun p => match p with
        | .idle => true
        | _ => false)) = some (some 11, true, true) := by decide

end Conc.Atom
