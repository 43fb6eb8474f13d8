import Verif.Conc.Atom

/-!
# `gc_atom_impl` (`atom.hpp` 81-120)

No counts and no lock: the pointer is an atomic.  The collector may recycle the address of a holder as soon as nothing
refers to it: no box of the client, not the atom, and no variable of a thread inside an operation.  `unique` is always
false (`no_refcount_policy.hpp`), so no box changes in place.
-/

namespace Conc.Atom.Gc

open Conc.Atom

variable {V : Type}

inductive PC (V : Type) where
  | idle
  /-- `load` (103): about to load -/
  | ld
  /-- `store` (105), `exchange` (107) if `x`: about to do it -/
  | st (x : Bool) (p : Nat)
  /-- `update` (109-118): about to load -/
  | up1 (f : V → V)
  /-- about to apply `fn` and make a box -/
  | up2 (f : V → V) (o : Nat)
  /-- about to `compare_exchange_weak` -/
  | up3 (f : V → V) (o n : Nat)
  | rt (r : Option Nat)

/-- pointers in the thread's frame -/
def PC.roots : PC V → List Nat
  | .idle | .ld | .up1 _ | .rt none => []
  | .st _ p | .up2 _ p | .rt (some p) => [p]
  | .up3 _ o n => [o, n]

structure St (V : Type) where
  mem : Nat → V
  cell : Nat
  pool : List Nat
  pc : List (PC V)
  hist : List (Ev V)

/-- everything from which the collector starts -/
def St.roots (s : St V) : List Nat := s.cell :: (s.pool ++ s.pc.flatMap PC.roots)

def St.setPC (s : St V) (t : Nat) (pc : PC V) : St V := { s with pc := s.pc.set t pc }

def put (m : Nat → V) (p : Nat) (v : V) : Nat → V := fun q => if q = p then v else m q

/-- Next step of thread `t`; `a` is the address of a new holder, `spur` that the weak exchange fails for no reason. -/
def go (t a : Nat) (spur : Bool) (s : St V) : Option (St V) :=
  match s.pc[t]? with
  | none | some .idle => none
  | some .ld => some (s.setPC t (.rt (some s.cell)))
  | some (.st x p) => some ({ s with cell := p }.setPC t (.rt (if x then some s.cell else none)))
  | some (.up1 f) => some (s.setPC t (.up2 f s.cell))
  | some (.up2 f o) =>
      if a ∈ s.roots then none else some ({ s with mem := put s.mem a (f (s.mem o)) }.setPC t (.up3 f o a))
  | some (.up3 f o n) =>
      if s.cell = o ∧ spur = false then some ({ s with cell := n }.setPC t (.rt (some n)))
      else some (s.setPC t (.up1 f))
  | some (.rt none) => some ({ s with hist := s.hist ++ [Ev.ret t none] }.setPC t .idle)
  | some (.rt (some p)) =>
      some ({ s with pool := p :: s.pool, hist := s.hist ++ [Ev.ret t (some (s.mem p))] }.setPC t .idle)

inductive Act (V : Type) where
  | make (a : Nat) (v : V)
  | copy (p : Nat)
  | drop (p : Nat)
  | call (t : Nat) (c : Call V)
  | go (t a : Nat) (spur : Bool)

def step (act : Act V) (s : St V) : Option (St V) :=
  match act with
  | .make a v => if a ∈ s.roots then none else some { s with mem := put s.mem a v, pool := a :: s.pool }
  | .copy p => if p ∈ s.pool then some { s with pool := p :: s.pool } else none
  | .drop p => if p ∈ s.pool then some { s with pool := s.pool.erase p } else none
  | .call t c =>
      match s.pc[t]? with
      | some .idle =>
          match c with
          | .load => some ({ s with hist := s.hist ++ [Ev.inv t .load] }.setPC t .ld)
          | .update f => some ({ s with hist := s.hist ++ [Ev.inv t (.update f)] }.setPC t (.up1 f))
          | .store p =>
              if p ∈ s.pool then
                some ({ s with pool := s.pool.erase p, hist := s.hist ++ [Ev.inv t (.store (s.mem p))] }.setPC t (.st false p))
              else none
          | .exchange p =>
              if p ∈ s.pool then
                some ({ s with pool := s.pool.erase p, hist := s.hist ++ [Ev.inv t (.exchange (s.mem p))] }.setPC t (.st true p))
              else none
      | _ => none
  | .go t a spur => go t a spur s

def run : List (Act V) → St V → Option (St V)
  | [], s => some s
  | a :: rest, s => (step a s).bind (run rest)

def init (n p : Nat) (v : V) : St V := ⟨fun _ => v, p, [], List.replicate n .idle, []⟩

/-- what a thread's position means for the cell seen as one object -/
def rel (m : Nat → V) : PC V → APC V → Prop
  | .idle, a => a = .idle
  | .ld, a => a = .pend .load
  | .st x p, a => a = .pend (if x then .exchange (m p) else .store (m p))
  | .up1 f, a | .up2 f _, a => a = .pend (.update f)
  | .up3 f o n, a => a = .pend (.update f) ∧ m n = f (m o)
  | .rt r, a => a = .done (r.map m)

structure Rel (s : St V) (a : Abs V) : Prop where
  val : s.mem s.cell = a.val
  hist : a.hist = s.hist
  len : a.pc.length = s.pc.length
  thr : ∀ (t : Nat) pc apc, s.pc[t]? = some pc → a.pc[t]? = some apc → rel s.mem pc apc

theorem rel_frame {m m' : Nat → V} {pc : PC V} {a : APC V} (h : rel m pc a) (hv : ∀ p, p ∈ pc.roots → m' p = m p) :
    rel m' pc a := by
  cases pc with
  | idle | ld | up1 | up2 => exact h
  | st x p => rw [rel, hv p (by simp [PC.roots])]; exact h
  | up3 f o n => rw [rel, hv o (by simp [PC.roots]), hv n (by simp [PC.roots])]; exact h
  | rt r =>
    cases r with
    | none => exact h
    | some p => rw [rel, Option.map_some, hv p (by simp [PC.roots])]; exact h

/-- a step of a thread -/
theorem thread_step {s s' : St V} {a a' : Abs V} {t : Nat} {pc pc' : PC V} {apc : APC V}
    (h : Rel s a) (hpc : s.pc[t]? = some pc) (hpc' : s'.pc = s.pc.set t pc')
    (ha' : a'.pc = a.pc.set t apc) (hh : a'.hist = s'.hist)
    (hval : ∀ p, p ∈ s.roots → s'.mem p = s.mem p)
    (hown : s'.mem s'.cell = a'.val) (hrel : rel s'.mem pc' apc) : Rel s' a' := by
  have htl : t < s.pc.length := by
    by_contra hc
    rw [List.getElem?_eq_none (by omega)] at hpc; cases hpc
  refine ⟨hown, hh, by rw [ha', hpc']; simp [h.len], ?_⟩
  intro u pcu apcu hu hau
  by_cases hut : u = t
  · subst hut
    rw [hpc', List.getElem?_set_self htl] at hu; cases hu
    rw [ha', List.getElem?_set_self (by rw [h.len]; exact htl)] at hau
    cases hau; exact hrel
  · rw [ha', List.getElem?_set_ne (Ne.symm hut)] at hau
    rw [hpc', List.getElem?_set_ne (Ne.symm hut)] at hu
    refine rel_frame (h.thr u pcu apcu hu hau) fun p hp => hval p ?_
    simp only [St.roots, List.mem_cons, List.mem_append, List.mem_flatMap]
    exact Or.inr (Or.inr ⟨pcu, List.mem_of_getElem? hu, hp⟩)

theorem get_apc {s : St V} {a : Abs V} (h : Rel s a) {t : Nat} {pc : PC V} (hpc : s.pc[t]? = some pc) :
    ∃ apc, a.pc[t]? = some apc ∧ rel s.mem pc apc := by
  have htl : t < s.pc.length := by
    by_contra hc
    rw [List.getElem?_eq_none (by omega)] at hpc; cases hpc
  have hl : t < a.pc.length := by rw [h.len]; exact htl
  exact ⟨a.pc[t], List.getElem?_eq_getElem hl, h.thr t pc _ hpc (List.getElem?_eq_getElem hl)⟩

theorem frame_roots {s : St V} {t : Nat} {pc : PC V} (hpc : s.pc[t]? = some pc) {p : Nat} (hp : p ∈ pc.roots) :
    p ∈ s.roots := by
  simp only [St.roots, List.mem_cons, List.mem_append, List.mem_flatMap]
  exact Or.inr (Or.inr ⟨pc, List.mem_of_getElem? hpc, hp⟩)

theorem put_ne {m : Nat → V} {p q : Nat} {v : V} (h : q ≠ p) : put m p v q = m q := if_neg h

theorem put_self {m : Nat → V} {p : Nat} {v : V} : put m p v p = v := if_pos rfl

theorem go_sim {s s' : St V} {a : Abs V} {t al : Nat} {spur : Bool} (h : Rel s a) (hs : go t al spur s = some s') :
    ∃ acts a', arun acts a = some a' ∧ Rel s' a' := by
  unfold go at hs
  cases hpc : s.pc[t]? with
  | none => rw [hpc] at hs; cases hs
  | some pc =>
    rw [hpc] at hs
    obtain ⟨apc, hapc, hr⟩ := get_apc h hpc
    cases pc with
    | idle => cases hs
    | ld =>
      cases hs
      have hr' : apc = .pend .load := hr
      subst hr'
      refine ⟨[.lin t], { a with pc := a.pc.set t (.done (some a.val)) }, by simp [arun, astep, hapc, Op.apply], ?_⟩
      exact thread_step h hpc rfl rfl h.hist (fun _ _ => rfl) h.val (by simp [St.setPC, rel, h.val])
    | st x p =>
      cases hs
      have hr' : apc = .pend (if x then .exchange (s.mem p) else .store (s.mem p)) := hr
      subst hr'
      refine ⟨[.lin t], { a with val := s.mem p, pc := a.pc.set t (.done (if x then some a.val else none)) }, ?_, ?_⟩
      · cases x <;> simp [arun, astep, hapc, Op.apply]
      · refine thread_step h hpc rfl rfl h.hist (fun _ _ => rfl) rfl ?_
        cases x <;> simp [St.setPC, rel, h.val]
    | up1 f =>
      cases hs
      exact ⟨[], a, rfl, thread_step h hpc rfl (set_same hapc).symm h.hist (fun _ _ => rfl) h.val hr⟩
    | up2 f o =>
      simp only at hs
      split at hs
      · cases hs
      · rename_i hal
        cases hs
        have ho : o ≠ al := by rintro rfl; exact hal (frame_roots hpc (by simp [PC.roots]))
        have hc : s.cell ≠ al := by rintro rfl; exact hal (by simp [St.roots])
        refine ⟨[], a, rfl, thread_step h hpc rfl (set_same hapc).symm h.hist ?_ ?_ ⟨hr, ?_⟩⟩
        · intro p hp
          exact put_ne (by rintro rfl; exact hal hp)
        · exact (put_ne hc).trans h.val
        · simp only [St.setPC, put_self, put_ne ho]
    | up3 f o n =>
      obtain ⟨e, hn⟩ := hr
      simp only at hs
      split at hs
      · rename_i hc
        cases hs
        obtain ⟨rfl, -⟩ := hc
        subst e
        refine ⟨[.lin t], { a with val := f a.val, pc := a.pc.set t (.done (some (f a.val))) },
          by simp [arun, astep, hapc, Op.apply], ?_⟩
        have hn' : s.mem n = f a.val := by rw [hn, h.val]
        exact thread_step h hpc rfl rfl h.hist (fun _ _ => rfl) hn' (by simp [St.setPC, rel, hn'])
      · cases hs
        exact ⟨[], a, rfl, thread_step h hpc rfl (set_same hapc).symm h.hist (fun _ _ => rfl) h.val e⟩
    | rt r =>
      have hr' : apc = .done (r.map s.mem) := hr
      subst hr'
      refine ⟨[.ret t], { a with pc := a.pc.set t .idle, hist := a.hist ++ [.ret t (r.map s.mem)] },
        by simp [arun, astep, hapc], ?_⟩
      cases r with
      | none =>
        cases hs
        exact thread_step h hpc rfl rfl (by simp [St.setPC, h.hist]) (fun _ _ => rfl) h.val rfl
      | some p =>
        cases hs
        exact thread_step h hpc rfl rfl (by simp [St.setPC, h.hist]) (fun _ _ => rfl) h.val rfl

theorem client_step {s : St V} {a : Abs V} {m : Nat → V} {pool : List Nat} (h : Rel s a)
    (hval : ∀ p, p ∈ s.roots → m p = s.mem p) : Rel { s with mem := m, pool := pool } a := by
  refine ⟨?_, h.hist, h.len, ?_⟩
  · exact (hval _ (by simp [St.roots])).trans h.val
  · intro t pc apc hpc hapc
    exact rel_frame (h.thr t pc apc hpc hapc) fun p hp => hval p (frame_roots (s := s) hpc hp)

theorem step_sim {s s' : St V} {a : Abs V} {act : Act V} (h : Rel s a) (hs : step act s = some s') :
    ∃ acts a', arun acts a = some a' ∧ Rel s' a' := by
  cases act with
  | go t al => exact go_sim h hs
  | make p v =>
    simp only [step] at hs
    split at hs
    · cases hs
    · rename_i hp
      cases hs
      exact ⟨[], a, rfl, client_step h fun q hq => put_ne (by rintro rfl; exact hp hq)⟩
  | copy p =>
    simp only [step] at hs
    split at hs
    · cases hs; exact ⟨[], a, rfl, client_step h fun _ _ => rfl⟩
    · cases hs
  | drop p =>
    simp only [step] at hs
    split at hs
    · cases hs; exact ⟨[], a, rfl, client_step h fun _ _ => rfl⟩
    · cases hs
  | call t c =>
    simp only [step] at hs
    split at hs
    · rename_i hpc
      obtain ⟨apc, hapc, hr⟩ := get_apc h hpc
      have hr' : apc = .idle := hr
      subst hr'
      cases c with
      | load =>
        cases hs
        exact ⟨[.inv t .load], { a with pc := a.pc.set t (.pend .load), hist := a.hist ++ [.inv t .load] },
          by simp [arun, astep, hapc],
          thread_step h hpc rfl rfl (by simp [St.setPC, h.hist]) (fun _ _ => rfl) h.val rfl⟩
      | update f =>
        cases hs
        exact ⟨[.inv t (.update f)], { a with pc := a.pc.set t (.pend (.update f)), hist := a.hist ++ [.inv t (.update f)] },
          by simp [arun, astep, hapc],
          thread_step h hpc rfl rfl (by simp [St.setPC, h.hist]) (fun _ _ => rfl) h.val rfl⟩
      | store p =>
        simp only at hs
        split at hs
        · cases hs
          exact ⟨[.inv t (.store (s.mem p))],
            { a with pc := a.pc.set t (.pend (.store (s.mem p))), hist := a.hist ++ [.inv t (.store (s.mem p))] },
            by simp [arun, astep, hapc],
            thread_step h hpc rfl rfl (by simp [St.setPC, h.hist]) (fun _ _ => rfl) h.val rfl⟩
        · cases hs
      | exchange p =>
        simp only at hs
        split at hs
        · cases hs
          exact ⟨[.inv t (.exchange (s.mem p))],
            { a with pc := a.pc.set t (.pend (.exchange (s.mem p))), hist := a.hist ++ [.inv t (.exchange (s.mem p))] },
            by simp [arun, astep, hapc],
            thread_step h hpc rfl rfl (by simp [St.setPC, h.hist]) (fun _ _ => rfl) h.val rfl⟩
        · cases hs
    · cases hs

theorem run_sim : ∀ (sched : List (Act V)) {s s' : St V} {a : Abs V}, Rel s a → run sched s = some s' →
    ∃ acts a', arun acts a = some a' ∧ Rel s' a'
  | [], s, s', a, h, hr => by cases hr; exact ⟨[], a, rfl, h⟩
  | x :: rest, s, s', a, h, hr => by
    simp only [run, Option.bind_eq_some_iff] at hr
    obtain ⟨m, h1, h2⟩ := hr
    obtain ⟨acts1, a1, e1, r1⟩ := step_sim h h1
    obtain ⟨acts2, a2, e2, r2⟩ := run_sim rest r1 h2
    exact ⟨acts1 ++ acts2, a2, by rw [arun_append, e1]; exact e2, r2⟩

theorem init_rel (n p : Nat) (v : V) : Rel (init n p v) ⟨v, List.replicate n .idle, []⟩ := by
  refine ⟨rfl, rfl, by simp [init], ?_⟩
  intro t pc apc h1 h2
  simp only [init, List.getElem?_replicate] at h1 h2
  split at h1
  · rename_i ht
    rw [if_pos ht] at h2
    cases h1; cases h2; rfl
  · cases h1

/-- C31, tracing collector -/
theorem C31_gc_linearizable {n p : Nat} {v : V} {sched : List (Act V)} {s : St V}
    (h : run sched (init n p v) = some s) : Linearizable n v s.hist := by
  obtain ⟨acts, a, e, r⟩ := run_sim sched (init_rel n p v) h
  exact ⟨acts, a, e, r.hist⟩

/-- C31: no update is lost, tracing collector -/
theorem C31_gc_updates {n p : Nat} {v : V} {sched : List (Act V)} {s : St V}
    (h : run sched (init n p v) = some s) (hq : ∀ pc ∈ s.pc, pc = .idle) (hu : ∀ e ∈ s.hist, e.onlyUpdate = true) :
    ∃ fs : List (V → V), fs.Perm (invoked s.hist) ∧ s.mem s.cell = fs.foldl (fun x f => f x) v := by
  obtain ⟨acts, a, e, r⟩ := run_sim sched (init_rel n p v) h
  rw [r.val, ← r.hist]
  refine updates_applied e ?_ (by rw [r.hist]; exact hu)
  intro apc hapc
  obtain ⟨t, ht, rfl⟩ := List.getElem_of_mem hapc
  have hts : t < s.pc.length := by rw [← r.len]; exact ht
  have := r.thr t _ _ (List.getElem?_eq_getElem hts) (List.getElem?_eq_getElem ht)
  rw [hq _ (List.getElem_mem hts)] at this
  exact this

def demo : List (Act Nat) :=
  [.make 8 10, .call 0 (.update (· + 1)), .call 1 (.exchange 8), .go 0 0 false, .go 0 9 false, .go 1 0 false, .go 1 0 false] ++
  [.go 0 0 false, .drop 7, .go 0 0 false, .go 0 7 false, .go 0 0 true, .go 0 0 false, .go 0 9 false, .go 0 0 false, .go 0 0 false]

/-- thread 0's first exchange fails as thread 1 came between; address 7 is recycled; the second fails for no reason -/
example : (run demo (init 2 7 5)).map (fun s => (s.mem s.cell, s.pool, s.hist.length)) = some (11, [9], 4) := by decide

/-- two updates, all hypotheses of `C31_gc_updates` -/
example : (run [.call 0 (.update (· + 1)), .call 1 (.update (· * 2)), .go 0 0 false, .go 1 0 false, .go 0 1 false, .go 1 2 false,
      .go 1 0 false, .go 0 0 false, .go 0 0 false, .go 0 3 false, .go 0 0 false, .go 0 0 false, .go 1 0 false]
      (init 2 7 5)).map (fun s => (s.mem s.cell, s.hist.all Ev.onlyUpdate, s.pc.all fun p => match p with
        | .idle => true
        | _ => false)) = some (11, true, true) := by decide

end Conc.Atom.Gc
