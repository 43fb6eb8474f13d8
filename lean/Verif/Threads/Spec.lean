import Mathlib.Data.List.Basic

/-!
# What threads with vectors should do

Each thread has some lists.  A command of a thread works on the lists of that thread only, and at once.  Threads pass lists to
each other through a pool.
-/

namespace Thr.Spec

variable {T : Type}

/-- commands on the vectors of a thread, which are numbered; new vectors come last -/
inductive Cmd (T : Type) where
  /-- `vector<T> w;` -/
  | make
  /-- `auto w = v;` -/
  | copy (i : Nat)
  /-- the end of the life of `v` -/
  | drop (i : Nat)
  /-- `v[k]` -/
  | get (i k : Nat)
  /-- `auto w = v.push_back(x);` -/
  | push (i : Nat) (x : T)
  /-- `v = std::move(v).push_back(x);` -/
  | pushIn (i : Nat) (x : T)
  /-- `auto w = v.update(k, f);` -/
  | update (i k : Nat) (f : T → T)
  /-- `v = std::move(v).update(k, f);` -/
  | updateIn (i k : Nat) (f : T → T)

/-- the lists after a command, and what it reads; `none` if there is no such list or no such element -/
def Cmd.run : Cmd T → List (List T) → Option (List (List T) × Option T)
  | .make, ls => some (ls ++ [[]], none)
  | .copy i, ls => ls[i]?.map fun l => (ls ++ [l], none)
  | .drop i, ls => ls[i]?.map fun _ => (ls.eraseIdx i, none)
  | .get i k, ls => ls[i]?.bind fun l => l[k]?.map fun x => (ls, some x)
  | .push i x, ls => ls[i]?.map fun l => (ls ++ [l ++ [x]], none)
  | .pushIn i x, ls => ls[i]?.map fun l => (ls.set i (l ++ [x]), none)
  | .update i k f, ls => ls[i]?.bind fun l => l[k]?.map fun x => (ls ++ [l.set k (f x)], none)
  | .updateIn i k f, ls => ls[i]?.bind fun l => l[k]?.map fun x => (ls.set i (l.set k (f x)), none)

/-- what happened: thread `t` was done with a command and read `r`, passed its vector `i` on, or took vector `j` of the pool -/
inductive Ev (T : Type) where
  | done (t : Nat) (x : Cmd T) (r : Option T)
  | send (t i : Nat)
  | recv (t j : Nat)

structure State (T : Type) where
  th : Nat → List (List T)
  pool : List (List T)

def State.set (s : State T) (t : Nat) (ls : List (List T)) : State T := { s with th := fun u => if u = t then ls else s.th u }

inductive Does : State T → Ev T → State T → Prop
  | done {s : State T} {t : Nat} {x : Cmd T} {ls : List (List T)} {r : Option T} (h : x.run (s.th t) = some (ls, r)) : Does s (.done t x r) (s.set t ls)
  | send {s : State T} {t i : Nat} {l : List T} (h : (s.th t)[i]? = some l) : Does s (.send t i) { s.set t ((s.th t).eraseIdx i) with pool := s.pool ++ [l] }
  | recv {s : State T} {t j : Nat} {l : List T} (h : s.pool[j]? = some l) : Does s (.recv t j) { s.set t (s.th t ++ [l]) with pool := s.pool.eraseIdx j }

/-- one after the other, from the state in which there are no lists -/
inductive Runs : List (Ev T) → State T → Prop
  | nil : Runs [] ⟨fun _ => [], []⟩
  | snoc {es : List (Ev T)} {e : Ev T} {s s' : State T} : Runs es s → Does s e s' → Runs (es ++ [e]) s'

end Thr.Spec
