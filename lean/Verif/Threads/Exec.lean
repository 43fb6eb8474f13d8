import Verif.Threads.Machine

/-!
# Running threads, for examples

A way to compute worlds that can be reached: a schedule says who does what next.
-/

namespace Thr
open Mm Rrb VecHeap
open Spec (Cmd Ev)

variable {T : Type} {c : Cfg} {er et n : Nat}

/-- elements that were all destroyed -/
def rawB : List (Slot T) → Bool
  | [] => true
  | .raw :: l => rawB l
  | _ => false

theorem rawB_eq {l : List (Slot T)} (h : rawB l = true) : l = List.replicate l.length .raw := by
  induction l with
  | nil => rfl
  | cons x l ih =>
    cases x with
    | raw => rw [List.length_cons, List.replicate_succ, ← ih h]
    | live x => cases h
    | moved => cases h

/-- a single access other than a load of a count; `q` is where memory is found -/
def Prog.exec {D β : Type} (room : D → Nat) (q : Nat) (m : Mem D T) : Prog D T β → Option (Op × Nat × Mem D T × Prog D T β)
  | .ret _ => none
  | .undef => none
  | .read p k => (m p).map fun c => (.read, p, m, k c.data c.els)
  | .write p f k => (m p).bind fun c => (f c.data c.els).map fun r => (.write, p, upd m p (some { c with data := r.1, els := r.2 }), k)
  | .inc p k => (m p).map fun c => (.inc, p, upd m p (some { c with rc := c.rc + 1 }), k)
  | .dec p k => (m p).bind fun c => if 0 < c.rc then some (.dec (c.rc == 1), p, upd m p (some { c with rc := c.rc - 1 }), k (c.rc == 1)) else none
  | .unique _ _ => none
  | .alloc n x k => match m q with
    | none => if q ≠ 0 then some (.alloc, q, upd m q (some ⟨1, 0, List.replicate n .raw, x⟩), k q) else none
    | some _ => none
  | .free p n j k => (m p).bind fun c => if rawB c.els = true ∧ c.els.length = n ∧ room c.data = j then some (.free, p, upd m p none, k) else none

theorem Prog.exec_step {D β : Type} {room : D → Nat} {q : Nat} {m m' : Mem D T} {p p' : Prog D T β} {o : Op} {a : Nat} (h : p.exec room q m = some (o, a, m', p')) : Prog.Step room m p o a m' p' ∧ ∀ b, o ≠ .unique b := by
  cases p with
  | ret b => cases h
  | undef => cases h
  | read p k =>
    obtain ⟨c, hc, h⟩ := Option.map_eq_some_iff.mp h
    cases h; exact ⟨.read hc, by simp⟩
  | write p f k =>
    obtain ⟨c, hc, h⟩ := Option.bind_eq_some_iff.mp h
    obtain ⟨r, hr, h⟩ := Option.map_eq_some_iff.mp h
    cases h; exact ⟨.write hc hr, by simp⟩
  | inc p k =>
    obtain ⟨c, hc, h⟩ := Option.map_eq_some_iff.mp h
    cases h; exact ⟨.inc hc, by simp⟩
  | dec p k =>
    obtain ⟨c, hc, h⟩ := Option.bind_eq_some_iff.mp h
    by_cases h0 : 0 < c.rc
    · rw [if_pos h0] at h; cases h; exact ⟨.dec hc h0, by simp⟩
    · rw [if_neg h0] at h; cases h
  | unique p k => cases h
  | alloc n x k =>
    unfold exec at h
    cases hq : m q with
    | some c => rw [hq] at h; cases h
    | none =>
      rw [hq] at h
      by_cases h0 : q ≠ 0
      · simp only [if_pos h0] at h; cases h; exact ⟨.alloc hq h0, by simp⟩
      · simp only [if_neg h0] at h; cases h
  | free p n j k =>
    obtain ⟨c, hc, h⟩ := Option.bind_eq_some_iff.mp h
    by_cases h0 : rawB c.els = true ∧ c.els.length = n ∧ room c.data = j
    · rw [if_pos h0] at h
      cases h
      exact ⟨.free hc (by rw [rawB_eq h0.1, h0.2.1]) h0.2.2, by simp⟩
    · rw [if_neg h0] at h; cases h

/-- who does what next -/
inductive Act (T : Type) where
  | start (t : Nat) (x : Cmd T)
  /-- the next access of thread `t`; it finds memory at `q`; a load sees the last value but `i` -/
  | run (t q i : Nat)
  | finish (t : Nat)
  | send (t i : Nat)
  | recv (t j : Nat)

def allowedB (c : Cfg) : Cmd T → List Vc → Bool
  | .make, _ => true
  | .copy i, hs => decide (i < hs.length)
  | .drop i, hs => decide (i < hs.length)
  | .get i k, hs => match hs[i]? with
    | some v => decide (k < v.size) && (c.deep || decide (v.size ≤ cap c 6))
    | none => false
  | .push i _, hs => decide (i < hs.length)
  | .pushIn i _, hs => decide (i < hs.length)
  | .update i k _, hs => match hs[i]? with
    | some v => decide (k < v.size)
    | none => false
  | .updateIn i k _, hs => match hs[i]? with
    | some v => decide (k < v.size)
    | none => false

theorem allowedB_ok {x : Cmd T} {hs : List Vc} (h : allowedB c x hs = true) : Allowed c x hs := by
  cases x with
  | make => trivial
  | copy i => exact (decide_eq_true_iff (p := i < hs.length)).mp h
  | drop i => exact (decide_eq_true_iff (p := i < hs.length)).mp h
  | push i x => exact (decide_eq_true_iff (p := i < hs.length)).mp h
  | pushIn i x => exact (decide_eq_true_iff (p := i < hs.length)).mp h
  | get i k =>
    simp only [allowedB] at h
    cases hv : hs[i]? with
    | none => rw [hv] at h; cases h
    | some v =>
      rw [hv] at h
      simp only [Bool.and_eq_true, Bool.or_eq_true, decide_eq_true_eq] at h
      exact ⟨v, hv, h.1, h.2⟩
  | update i k f =>
    simp only [allowedB] at h
    cases hv : hs[i]? with
    | none => rw [hv] at h; cases h
    | some v => rw [hv] at h; exact ⟨v, hv, (decide_eq_true_iff (p := k < v.size)).mp h⟩
  | updateIn i k f =>
    simp only [allowedB] at h
    cases hv : hs[i]? with
    | none => rw [hv] at h; cases h
    | some v => rw [hv] at h; exact ⟨v, hv, (decide_eq_true_iff (p := k < v.size)).mp h⟩

section
variable (c er et n)

def World.act (w : World T) : Act T → Option (World T)
  | .start t x => if t < n then match w.th t with
    | ⟨K, .idle hs⟩ => if allowedB c x hs then some { w with th := upd w.th t ⟨K, .busy x (code c er et x hs)⟩ } else none
    | _ => none
    else none
  | .run t q i => if t < n then match w.th t with
    | ⟨K, .busy x (.unique a k)⟩ => (w.mem a).bind fun _ => ((w.hist a)[i]?).bind fun y =>
      if ((w.hist a).take i).all (fun z => !K.contains z.id) then
        some { w with th := upd w.th t ⟨w.now :: (K ++ if y.val = 1 then y.rel else []), .busy x (k (y.val == 1))⟩,
                      clk := w.clk.after (.unique (y.val == 1)) a w.now K, now := w.now + 1 }
      else none
    | ⟨K, .busy x p⟩ => (p.exec room q w.mem).map fun (o, a, m', p') =>
      { w with mem := m', th := upd w.th t ⟨o.know a w.now K w.clk, .busy x p'⟩, clk := w.clk.after o a w.now K,
               hist := histAfter w.hist w.clk o a w.now K m', now := w.now + 1 }
    | _ => none
    else none
  | .finish t => if t < n then match w.th t with
    | ⟨K, .busy x (.ret (hs, r))⟩ => some { w with th := upd w.th t ⟨K, .idle hs⟩, log := w.log ++ [.done t x r] }
    | _ => none
    else none
  | .send t i => if t < n then match w.th t with
    | ⟨K, .idle hs⟩ => (hs[i]?).map fun v => { w with th := upd w.th t ⟨K, .idle (hs.eraseIdx i)⟩, pool := w.pool ++ [(v, K)], log := w.log ++ [.send t i] }
    | _ => none
    else none
  | .recv t j => if t < n then match w.th t with
    | ⟨K, .idle hs⟩ => (w.pool[j]?).map fun (v, K') => { w with th := upd w.th t ⟨K ++ K', .idle (hs ++ [v])⟩, pool := w.pool.eraseIdx j, log := w.log ++ [.recv t j] }
    | _ => none
    else none

def World.acts (w : World T) : List (Act T) → Option (World T)
  | [] => some w
  | a :: as => (w.act c er et n a).bind fun w' => World.acts w' as

end

theorem World.act_step {w w' : World T} {a : Act T} (h : w.act c er et n a = some w') : World.Step c er et n w w' := by
  cases a with
  | start t x =>
    simp only [act] at h
    by_cases ht : t < n
    · rw [if_pos ht] at h
      cases hw : w.th t with
      | mk K ph =>
        rw [hw] at h
        cases ph with
        | busy x p => cases h
        | idle hs =>
          by_cases hx : allowedB c x hs = true
          · simp only [if_pos hx] at h; cases h; exact .start ht hw (allowedB_ok hx)
          · simp only [if_neg hx] at h; cases h
    · rw [if_neg ht] at h; cases h
  | run t q i =>
    simp only [act] at h
    by_cases ht : t < n
    · rw [if_pos ht] at h
      cases hw : w.th t with
      | mk K ph =>
        rw [hw] at h
        cases ph with
        | idle hs => cases h
        | busy x p =>
          have key : ∀ p : TM T (List Vc × Option T), w.th t = ⟨K, .busy x p⟩ → ((p.exec room q w.mem).map fun (o, a, m', p') =>
              { w with mem := m', th := upd w.th t ⟨o.know a w.now K w.clk, .busy x p'⟩, clk := w.clk.after o a w.now K,
                       hist := histAfter w.hist w.clk o a w.now K m', now := w.now + 1 }) = some w' → World.Step c er et n w w' := by
            intro p hw h
            obtain ⟨⟨o, a, m', p'⟩, hp, h⟩ := Option.map_eq_some_iff.mp h
            obtain ⟨h1, h2⟩ := Prog.exec_step hp
            cases h; exact .run ht hw h2 h1
          cases p with
          | unique a k =>
            obtain ⟨cl, hcl, h⟩ := Option.bind_eq_some_iff.mp h
            obtain ⟨y, hy, h⟩ := Option.bind_eq_some_iff.mp h
            by_cases hall : ((w.hist a).take i).all (fun z => !K.contains z.id) = true
            · rw [if_pos hall] at h
              cases h
              refine .load ht hw (by rw [hcl]; simp) (pre := (w.hist a).take i) (post := (w.hist a).drop (i + 1)) ?_ fun z hz => ?_
              · obtain ⟨hi, rfl⟩ := List.getElem?_eq_some_iff.mp hy
                rw [List.getElem_cons_drop, List.take_append_drop]
              · simpa using List.all_eq_true.mp hall z hz
            · rw [if_neg hall] at h; cases h
          | _ => exact key _ hw h
    · rw [if_neg ht] at h; cases h
  | finish t =>
    simp only [act] at h
    by_cases ht : t < n
    · rw [if_pos ht] at h
      cases hw : w.th t with
      | mk K ph =>
        rw [hw] at h
        cases ph with
        | idle hs => cases h
        | busy x p =>
          cases p with
          | ret r =>
            obtain ⟨hs, r⟩ := r
            cases h; exact .finish ht hw
          | undef => cases h
          | read => cases h
          | write => cases h
          | inc => cases h
          | dec => cases h
          | unique => cases h
          | alloc => cases h
          | free => cases h
    · rw [if_neg ht] at h; cases h
  | send t i =>
    simp only [act] at h
    by_cases ht : t < n
    · rw [if_pos ht] at h
      cases hw : w.th t with
      | mk K ph =>
        rw [hw] at h
        cases ph with
        | busy x p => cases h
        | idle hs =>
          obtain ⟨v, hv, h⟩ := Option.map_eq_some_iff.mp h
          cases h; exact .send ht hw hv
    · rw [if_neg ht] at h; cases h
  | recv t j =>
    simp only [act] at h
    by_cases ht : t < n
    · rw [if_pos ht] at h
      cases hw : w.th t with
      | mk K ph =>
        rw [hw] at h
        cases ph with
        | busy x p => cases h
        | idle hs =>
          obtain ⟨⟨v, K'⟩, hv, h⟩ := Option.map_eq_some_iff.mp h
          cases h; exact .recv ht hw hv
    · rw [if_neg ht] at h; cases h

theorem World.acts_reached {as : List (Act T)} {w w' : World T} (hw : Reached c er et n w) (h : w.acts c er et n as = some w') : Reached c er et n w' := by
  induction as generalizing w with
  | nil => cases h; exact hw
  | cons a as ih =>
    obtain ⟨w1, h1, h⟩ := Option.bind_eq_some_iff.mp h
    exact ih (hw.step (act_step h1)) h

end Thr
