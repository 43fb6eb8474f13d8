/-!
# What an atom is: one mutable cell

The specification for `atom.hpp`: a cell whose operations happen at one instant between invocation and return.  A
history of invocations and returns is linearizable iff this machine has it (the canonical atomic object).
-/

namespace Conc.Atom

/-- operations on a cell of values -/
inductive Op (V : Type) where
  | load
  | store (v : V)
  | exchange (v : V)
  | update (f : V → V)

/-- new content and result -/
def Op.apply {V : Type} : Op V → V → V × Option V
  | .load, v => (v, some v)
  | .store w, _ => (w, none)
  | .exchange w, v => (w, some v)
  | .update f, v => (f v, some (f v))

/-- what a client observes: calls and returns, with thread -/
inductive Ev (V : Type) where
  | inv (t : Nat) (op : Op V)
  | ret (t : Nat) (r : Option V)

inductive APC (V : Type) where
  | idle
  | pend (op : Op V)
  | done (r : Option V)

structure Abs (V : Type) where
  val : V
  pc : List (APC V)
  hist : List (Ev V)

inductive AAct (V : Type) where
  | inv (t : Nat) (op : Op V)
  /-- the operation of thread `t` happens now -/
  | lin (t : Nat)
  | ret (t : Nat)

def astep {V : Type} (act : AAct V) (a : Abs V) : Option (Abs V) :=
  match act with
  | .inv t op =>
      match a.pc[t]? with
      | some .idle => some { a with pc := a.pc.set t (.pend op), hist := a.hist ++ [.inv t op] }
      | _ => none
  | .lin t =>
      match a.pc[t]? with
      | some (.pend op) => some { a with val := (op.apply a.val).1, pc := a.pc.set t (.done (op.apply a.val).2) }
      | _ => none
  | .ret t =>
      match a.pc[t]? with
      | some (.done r) => some { a with pc := a.pc.set t .idle, hist := a.hist ++ [.ret t r] }
      | _ => none

def arun {V : Type} : List (AAct V) → Abs V → Option (Abs V)
  | [], a => some a
  | x :: rest, a => (astep x a).bind (arun rest)

theorem arun_append {V : Type} (x y : List (AAct V)) (a : Abs V) : arun (x ++ y) a = (arun x a).bind (arun y) := by
  induction x generalizing a with
  | nil => rfl
  | cons x xs ih =>
    simp only [List.cons_append, arun]
    cases astep x a with
    | none => rfl
    | some m => exact ih m

/-- `hist` is a linearizable history, by `n` threads, of a cell that starts with `v` -/
def Linearizable {V : Type} (n : Nat) (v : V) (hist : List (Ev V)) : Prop :=
  ∃ acts a, arun acts ⟨v, List.replicate n .idle, []⟩ = some a ∧ a.hist = hist

/-! ### No update is lost -/

/-- calls other than `update` excluded -/
def Ev.onlyUpdate {V : Type} : Ev V → Bool
  | .inv _ (.update _) => true
  | .inv _ _ => false
  | .ret _ _ => true

/-- the functions of all calls of `update` -/
def invoked {V : Type} (hist : List (Ev V)) : List (V → V) :=
  hist.filterMap fun e => match e with
    | .inv _ (.update f) => some f
    | _ => none

/-- functions of the updates still to happen -/
def pending {V : Type} (pc : List (APC V)) : List (V → V) :=
  pc.filterMap fun p => match p with
    | .pend (.update f) => some f
    | _ => none

theorem filterMap_set {α β : Type} (g : α → Option β) : ∀ {l : List α} {t : Nat} {x y : α}, l[t]? = some x →
    ((g x).toList ++ (l.set t y).filterMap g).Perm ((g y).toList ++ l.filterMap g)
  | [], t, x, y, h => by simp at h
  | z :: zs, 0, x, y, h => by
    simp at h; subst h
    simp only [List.set_cons_zero, List.filterMap_cons]
    cases hz : g z <;> cases hy : g y <;> simp [hz, hy]
    exact List.Perm.swap _ _ _
  | z :: zs, t + 1, x, y, h => by
    have ih := filterMap_set g (l := zs) (t := t) (y := y) (by simpa using h)
    simp only [List.set_cons_succ, List.filterMap_cons]
    cases hz : g z with
    | none => exact ih
    | some b =>
      refine List.perm_middle.trans (List.Perm.trans (List.Perm.cons b ih) ?_)
      exact List.perm_middle.symm

structure UInv {V : Type} (v : V) (a : Abs V) : Prop where
  only : ∀ p ∈ a.pc, ∀ op, p = .pend op → ∃ f, op = .update f
  ex : ∃ fs : List (V → V), (fs ++ pending a.pc).Perm (invoked a.hist) ∧ a.val = fs.foldl (fun x f => f x) v

theorem astep_uinv {V : Type} {v : V} {a a' : Abs V} {x : AAct V} (h : (∀ e ∈ a.hist, e.onlyUpdate = true) → UInv v a)
    (hs : astep x a = some a') (hu : ∀ e ∈ a'.hist, e.onlyUpdate = true) : UInv v a' := by
  cases x with
  | inv t op =>
    simp only [astep] at hs
    split at hs
    · rename_i hpc
      cases hs
      obtain ⟨h1, fs, h2, h3⟩ := h fun e he => hu e (by simp [he])
      have hop := hu (.inv t op) (by simp)
      cases op with
      | update f =>
        refine ⟨?_, fs, ?_, h3⟩
        · intro p hp op e
          rcases List.mem_or_eq_of_mem_set hp with hp | hp
          · exact h1 p hp op e
          · rw [hp] at e; cases e; exact ⟨f, rfl⟩
        · have := filterMap_set (fun p : APC V => match p with
            | .pend (.update f) => some f
            | _ => none) (y := .pend (.update f)) hpc
          simp only [Option.toList, List.nil_append] at this
          simp only [invoked, List.filterMap_append, List.filterMap_cons, List.filterMap_nil]
          refine (List.Perm.append_left fs this).trans ?_
          simp only [List.cons_append, List.nil_append]
          refine List.perm_middle.trans ?_
          exact (List.Perm.cons f h2).trans (List.perm_append_singleton f _).symm
      | load => cases hop
      | store => cases hop
      | exchange => cases hop
    · cases hs
  | lin t =>
    simp only [astep] at hs
    split at hs
    · rename_i op hpc
      cases hs
      obtain ⟨h1, fs, h2, h3⟩ := h hu
      obtain ⟨f, rfl⟩ := h1 _ (List.mem_of_getElem? hpc) op rfl
      refine ⟨?_, fs ++ [f], ?_, ?_⟩
      · intro p hp op e
        rcases List.mem_or_eq_of_mem_set hp with hp | hp
        · exact h1 p hp op e
        · rw [hp] at e; cases e
      · have := filterMap_set (fun p : APC V => match p with
            | .pend (.update f) => some f
            | _ => none) (y := .done ((Op.update f).apply a.val).2) hpc
        simp only [Option.toList, List.nil_append] at this
        refine List.Perm.trans ?_ h2
        rw [List.append_assoc]
        exact List.Perm.append_left fs this
      · simp [Op.apply, h3]
    · cases hs
  | ret t =>
    simp only [astep] at hs
    split at hs
    · rename_i r hpc
      cases hs
      obtain ⟨h1, fs, h2, h3⟩ := h fun e he => hu e (by simp [he])
      refine ⟨?_, fs, ?_, h3⟩
      · intro p hp op e
        rcases List.mem_or_eq_of_mem_set hp with hp | hp
        · exact h1 p hp op e
        · rw [hp] at e; cases e
      · have := filterMap_set (fun p : APC V => match p with
            | .pend (.update f) => some f
            | _ => none) (y := .idle) hpc
        simp only [Option.toList, List.nil_append] at this
        simp only [invoked, List.filterMap_append, List.filterMap_cons, List.filterMap_nil, List.append_nil]
        exact (List.Perm.append_left fs this).trans h2
    · cases hs

theorem arun_uinv {V : Type} {v : V} : ∀ (acts : List (AAct V)) {a a' : Abs V},
    ((∀ e ∈ a.hist, e.onlyUpdate = true) → UInv v a) → arun acts a = some a' →
    (∀ e ∈ a'.hist, e.onlyUpdate = true) → UInv v a'
  | [], a, a', h, hr, hu => by cases hr; exact h hu
  | x :: rest, a, a', h, hr, hu => by
    simp only [arun, Option.bind_eq_some_iff] at hr
    obtain ⟨m, h1, h2⟩ := hr
    exact arun_uinv rest (fun hm => astep_uinv h h1 hm) h2 hu

/-- When only updates were called and all have returned, the content is the result of applying the functions of all
of them, each once, in some order. -/
theorem updates_applied {V : Type} {n : Nat} {v : V} {acts : List (AAct V)} {a : Abs V}
    (h : arun acts ⟨v, List.replicate n .idle, []⟩ = some a) (hq : ∀ p ∈ a.pc, p = .idle)
    (hu : ∀ e ∈ a.hist, e.onlyUpdate = true) :
    ∃ fs : List (V → V), fs.Perm (invoked a.hist) ∧ a.val = fs.foldl (fun x f => f x) v := by
  have h0 : UInv v ⟨v, List.replicate n .idle, []⟩ := by
    refine ⟨?_, [], ?_, rfl⟩
    · intro p hp op e
      rw [List.eq_of_mem_replicate hp] at e; cases e
    · have : pending (List.replicate n (APC.idle : APC V)) = [] := by
        simp only [pending, List.filterMap_eq_nil_iff]
        intro x hx; rw [List.eq_of_mem_replicate hx]
      simp only [this]; exact List.Perm.refl _
  obtain ⟨-, fs, h2, h3⟩ := arun_uinv acts (fun _ => h0) h hu
  refine ⟨fs, ?_, h3⟩
  have : pending a.pc = [] := by
    simp only [pending, List.filterMap_eq_nil_iff]
    intro x hx; rw [hq x hx]
  rwa [this, List.append_nil] at h2

/-- two updates by two threads: they happened in the order in which they were called, though not returned -/
example : Linearizable 2 (0 : Nat) [.inv 0 (.update (· + 1)), .inv 1 (.update (· * 2)), .ret 1 (some 2), .ret 0 (some 1)] :=
  ⟨[.inv 0 (.update (· + 1)), .inv 1 (.update (· * 2)), .lin 0, .lin 1, .ret 1, .ret 0], _, rfl, rfl⟩

end Conc.Atom
