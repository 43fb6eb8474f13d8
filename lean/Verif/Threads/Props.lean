import Verif.Threads.Run
import Verif.Threads.Exec

/-!
# Threads that share nodes do not disturb each other (C48)

`C48_results`, `C48_no_undefined`, `C48_no_race`, `C48_released`, `C48_wait_free`: for any number of threads, any commands and any
order of the single accesses of all threads.
-/

namespace Thr
open Mm Rrb VecHeap
open Thr.Prog (ret undef)
open Spec (Cmd Ev)

variable {T : Type} {c : Cfg} {er et n t : Nat} {w : World T}

/-- **C48.**  What threads did and read is what they would have done and read with lists of their own, one command at a time in
the order in which the commands ended; and the vectors they have now are as long as these lists.  (What is in them can be
read: `get`.) -/
theorem C48_results (hB : 0 < c.B) (hne : er ≠ et) (h : Reached c er et n w) :
    ∃ s, Spec.Runs w.log s ∧ (∀ t < n, ∀ hs, (w.th t).phase = .idle hs → hs.map Vc.size = (s.th t).map List.length) ∧
      w.pool.map (fun q => q.1.size) = s.pool.map List.length := by
  obtain ⟨s, Os, Ls, zp, hf⟩ := h.fine hB hne
  have hz : ∀ zs : List (Item T), (∀ z ∈ zs, z.Ok c) → (zs.map Item.v).map Vc.size = (zs.map Item.l).map List.length := by
    intro zs hok
    rw [List.map_map, List.map_map]
    refine List.map_congr_left fun z hz => ?_
    obtain ⟨h1, h2⟩ := hok z hz
    exact h1.size.trans (size_of h2)
  refine ⟨s, hf.runs, ?_, ?_⟩
  · intro t ht hs hw
    have h1 := hf.th t ht
    rw [hw] at h1
    obtain ⟨-, zs, hok, -, rfl, hl⟩ := h1
    rw [hl]
    exact hz zs hok
  · rw [hf.lists, ← hz zp hf.items, ← hf.pool, List.map_map]
    rfl

/-- **C48.**  Nothing undefined happens: a thread that is within a command is at its end or can make its next access.  (Accesses
to memory that was freed, elements that are not there, counts below zero and wrong sizes for `deallocate` have no step.) -/
theorem C48_no_undefined (hB : 0 < c.B) (hne : er ≠ et) (h : Reached c er et n w) (ht : t < n) {x : Cmd T} {p : TM T (List Vc × Option T)}
    (hw : (w.th t).phase = .busy x p) : (∃ r, p = ret r) ∨ ∃ w' p', World.Step c er et n w w' ∧ (w'.th t).phase = .busy x p' ∧ w'.now = w.now + 1 := by
  obtain ⟨s, Os, Ls, zp, hf⟩ := h.fine hB hne
  have h1 := hf.th t ht
  rw [hw] at h1
  refine (safe_progress h1 (hf.inv_at ht)).imp_right fun ⟨o, a, m', p', hs⟩ => ?_
  have hw' : w.th t = ⟨(w.th t).know, .busy x p⟩ := by rw [← hw]
  by_cases ho : ∀ b, o ≠ .unique b
  · exact ⟨_, p', .run ht hw' ho hs, congrArg Thread.phase upd_self, rfl⟩
  · obtain ⟨b, hb⟩ := Classical.not_forall.mp ho
    obtain rfl := Classical.not_not.mp hb
    cases hs with
    | @unique _ cl k _ hc hb =>
      obtain ⟨y, H, h2, h3, h4⟩ := hf.recent.head a cl hc
      exact ⟨_, k (y.val == 1), .load ht hw' (by rw [hc]; simp) (pre := []) h2 (by simp), congrArg Thread.phase upd_self, rfl⟩

theorem Reached.outside (h : Reached c er et n w) (ht : n ≤ t) : (w.th t).phase = .idle [] := by
  induction h with
  | init => rfl
  | step _ hs ih =>
    cases hs with
    | start h1 => show Thread.phase (upd _ _ _ t) = _; rw [upd_ne (by omega)]; exact ih
    | load h1 => show Thread.phase (upd _ _ _ t) = _; rw [upd_ne (by omega)]; exact ih
    | run h1 => show Thread.phase (upd _ _ _ t) = _; rw [upd_ne (by omega)]; exact ih
    | finish h1 => show Thread.phase (upd _ _ _ t) = _; rw [upd_ne (by omega)]; exact ih
    | send h1 => show Thread.phase (upd _ _ _ t) = _; rw [upd_ne (by omega)]; exact ih
    | recv h1 => show Thread.phase (upd _ _ _ t) = _; rw [upd_ne (by omega)]; exact ih

/-- **C48.**  There are no data races: whatever access a thread makes next, all accesses that conflict with it happened before,
given the memory orders in the code. -/
theorem C48_no_race (hB : 0 < c.B) (hne : er ≠ et) (h : Reached c er et n w) (t : Nat) : ¬ w.Race t := by
  rintro ⟨x, p, a, k, hw, hn, e, he, hc, hk⟩
  by_cases ht : t < n
  · obtain ⟨s, Os, Ls, zp, hf⟩ := h.fine hB hne
    have h1 := hf.th t ht
    rw [hw] at h1
    obtain ⟨O0, L0, hi0, hm, ⟨c0, hc0⟩, hmi, hwr⟩ := safe_next h1 (hf.inv_at ht) hn
    exact hk (Known.safe rfl hi0 (others_sub n t w.th w.pool Os Ls zp) (known_moved hm (hf.known_at ht)) (by rw [hc0]; simp) hmi hwr he hc)
  · rw [h.outside (by omega)] at hw
    cases hw

/-- **C48.**  Loads of counts may see values that are out of date.  But when `unique()` (`refcount_policy.hpp` 37) says that there is only one
reference this is so now. -/
theorem C48_unique_current (hB : 0 < c.B) (hne : er ≠ et) (h : Reached c er et n w) (ht : t < n) {x : Cmd T} {a : Nat} {k : Bool → TM T (List Vc × Option T)}
    (hw : (w.th t).phase = .busy x (.unique a k)) {pre post : List Mod} {y : Mod} (hh : w.hist a = pre ++ y :: post) (hp : ∀ z ∈ pre, z.id ∉ (w.th t).know) (hy : y.val = 1) :
    ∃ cl, w.mem a = some cl ∧ cl.rc = 1 := by
  obtain ⟨s, Os, Ls, zp, hf⟩ := h.fine hB hne
  exact (hf.sees ht (K := (w.th t).know) (by rw [← hw]) hh hp hy).1

/-- **C48.**  Nothing is lost: when all threads have ended and gave up their vectors, the two static nodes are all that is left,
with nobody else having a reference to them. -/
theorem C48_released (hB : 0 < c.B) (hne : er ≠ et) (h : Reached c er et n w) (hth : ∀ t < n, (w.th t).phase = .idle []) (hp : w.pool = []) :
    (∀ p, w.mem p ≠ none ↔ p = er ∨ p = et) ∧ ∀ p, p = er ∨ p = et → ∃ cl, w.mem p = some cl ∧ cl.rc = 1 := by
  obtain ⟨s, Os, Ls, zp, hf⟩ := h.fine hB hne
  have hO : allOf n Os = [] := allOf_nil fun t ht => by
    have h1 := hf.th t ht
    rw [hth t ht] at h1
    exact h1.1
  have hL : allOf n Ls = [] := allOf_nil fun t ht => by
    have h1 := hf.th t ht
    rw [hth t ht] at h1
    obtain ⟨-, zs, -, h2, h3, -⟩ := h1
    rw [h2, List.map_eq_nil_iff.mp h3.symm]
    rfl
  have hz : zp = [] := by
    have := hf.pool
    rw [hp] at this
    exact List.map_eq_nil_iff.mp this.symm
  have hi := hf.inv.1
  rw [hO, hL, hz] at hi
  have hr : Rel c (E0 : Env Dat T) (fun _ _ => True) er et ⟨⟨w.mem, 0, none⟩, [], 1⟩ [] := by
    refine ⟨[], rfl, .nil, ?_, List.nodup_nil, (fun t ht => by cases ht), Nat.one_pos, (fun g hg => by cases hg), (fun g hg => by cases hg), (fun g hg => by cases hg)⟩
    have h3 : toks (E0 : Env Dat T).gc 1 (acts ([] : List (Gh T))) = u0 := toks_eq _
    rw [h3]
    exact hi
  exact hr.released rfl hne rfl

/-- a program is finite, whatever happens to memory between its steps -/
theorem Prog.acc {D β : Type} (room : D → Nat) (p : Prog D T β) : Acc (fun p' p : Prog D T β => ∃ m o a m', Prog.Step room m p o a m' p') p := by
  induction p with
  | ret b => exact ⟨_, fun q ⟨m, o, a, m', h⟩ => by cases h⟩
  | undef => exact ⟨_, fun q ⟨m, o, a, m', h⟩ => by cases h⟩
  | read p k ih => exact ⟨_, fun q ⟨m, o, a, m', h⟩ => by cases h; exact ih _ _⟩
  | write p f k ih => exact ⟨_, fun q ⟨m, o, a, m', h⟩ => by cases h; exact ih⟩
  | inc p k ih => exact ⟨_, fun q ⟨m, o, a, m', h⟩ => by cases h; exact ih⟩
  | dec p k ih => exact ⟨_, fun q ⟨m, o, a, m', h⟩ => by cases h; exact ih _⟩
  | unique p k ih => exact ⟨_, fun q ⟨m, o, a, m', h⟩ => by cases h; exact ih _⟩
  | alloc n x k ih => exact ⟨_, fun q ⟨m, o, a, m', h⟩ => by cases h; exact ih _⟩
  | free p n j k ih => exact ⟨_, fun q ⟨m, o, a, m', h⟩ => by cases h; exact ih⟩

theorem Prog.some_step {D β : Type} {room : D → Nat} {a : Nat} {k : Bool → Prog D T β} (x : D) (b : Bool) : ∃ m o a' m', Prog.Step room m (.unique a k) o a' m' (k b) := by
  exact ⟨fun _ => some ⟨1, 0, [], x⟩, _, _, _, .unique rfl fun _ => rfl⟩

/-- **C48.**  No thread waits for others: in a run without end in which thread `t` is never stopped for good, each of its commands
ends, whatever the others do and wherever they are stopped. -/
theorem C48_wait_free {ws : Nat → World T} (hs : ∀ i, World.Step c er et n (ws i) (ws (i + 1))) (hf : ∀ i, ∃ j, i ≤ j ∧ (ws (j + 1)).th t ≠ (ws j).th t) (i : Nat) :
    ∃ j, i ≤ j ∧ ∃ v, ((ws j).th t).phase = .idle v := by
  have key : ∀ p : TM T (List Vc × Option T), ∀ (K : List Nat) (x : Cmd T) (i : Nat), (ws i).th t = ⟨K, .busy x p⟩ → ∃ j, i ≤ j ∧ ∃ v, ((ws j).th t).phase = .idle v := by
    intro p
    induction Prog.acc room p with
    | intro p _ ih =>
      intro K x i hi
      obtain ⟨d, hd, hmin⟩ : ∃ d, (ws (i + d + 1)).th t ≠ (ws (i + d)).th t ∧ ∀ e < d, (ws (i + e + 1)).th t = (ws (i + e)).th t := by
        classical
        obtain ⟨j, hj, hne⟩ := hf i
        have hex : ∃ d, (ws (i + d + 1)).th t ≠ (ws (i + d)).th t := ⟨j - i, by rw [show i + (j - i) = j by omega]; exact hne⟩
        exact ⟨Nat.find hex, Nat.find_spec hex, fun e he => not_not.mp (Nat.find_min hex he)⟩
      have hsame : ∀ e, e ≤ d → (ws (i + e)).th t = ⟨K, .busy x p⟩ := by
        intro e
        induction e with
        | zero => intro _; exact hi
        | succ e ihe => intro he; rw [← Nat.add_assoc, hmin e (by omega)]; exact ihe (by omega)
      have hd0 := hsame d (Nat.le_refl d)
      have h1 := hs (i + d)
      generalize hw1 : ws (i + d + 1) = w1 at h1 hd
      generalize hw0 : ws (i + d) = w0 at h1 hd hd0
      have hdt : ∀ {u : Nat} {z : Thread T}, upd w0.th u z t ≠ w0.th t → u = t := by
        intro u z h
        by_contra hcon
        exact h (upd_ne (Ne.symm hcon))
      cases h1 with
      | start ht h2 hx => obtain rfl := hdt hd; rw [hd0] at h2; cases h2
      | send ht h2 hx => obtain rfl := hdt hd; rw [hd0] at h2; cases h2
      | recv ht h2 hx => obtain rfl := hdt hd; rw [hd0] at h2; cases h2
      | finish ht h2 =>
        obtain rfl := hdt hd
        exact ⟨i + d + 1, by omega, _, by rw [hw1]; show Thread.phase (upd _ _ _ _) = _; rw [upd_self]⟩
      | run ht h2 _ h3 =>
        obtain rfl := hdt hd
        rw [hd0] at h2
        cases h2
        obtain ⟨j, hj, hv⟩ := ih _ ⟨_, _, _, _, h3⟩ _ x (i + d + 1) (by rw [hw1]; exact upd_self)
        exact ⟨j, by omega, hv⟩
      | load ht h2 =>
        obtain rfl := hdt hd
        rw [hd0] at h2
        cases h2
        obtain ⟨j, hj, hv⟩ := ih _ (Prog.some_step .leaf _) _ x (i + d + 1) (by rw [hw1]; exact upd_self)
        exact ⟨j, by omega, hv⟩
  cases h : (ws i).th t with
  | mk K ph =>
    cases ph with
    | idle v => exact ⟨i, Nat.le_refl i, v, by rw [h]⟩
    | busy x p => exact key p K x i h

/-! ## What the description of what threads should do says -/

/-- what happened decides what there is -/
theorem C48_spec_unique {es : List (Ev T)} {s s' : Spec.State T} (h : Spec.Runs es s) (h' : Spec.Runs es s') : s = s' := by
  induction h generalizing s' with
  | nil =>
    generalize he : ([] : List (Ev T)) = es at h'
    cases h' with
    | nil => rfl
    | snoc _ _ => simp at he
  | @snoc es e s s1 hr hd ih =>
    generalize he : es ++ [e] = es' at h'
    cases h' with
    | nil => simp at he
    | snoc hr' hd' =>
      obtain ⟨h1, he⟩ := List.append_inj' he rfl
      obtain rfl := List.singleton_inj.mp he
      subst h1
      obtain rfl := ih hr'
      cases hd with
      | done h1 => cases hd' with | done h2 => rw [h1] at h2; cases h2; rfl
      | send h1 => cases hd' with | send h2 => rw [h1] at h2; cases h2; rfl
      | recv h1 => cases hd' with | recv h2 => rw [h1] at h2; cases h2; rfl

/-- what others do leaves the lists of a thread alone -/
theorem C48_spec_isolated {e : Ev T} {s s' : Spec.State T} (h : Spec.Does s e s') (he : match e with | .done u _ _ => u ≠ t | .send u _ => u ≠ t | .recv u _ => u ≠ t) : s'.th t = s.th t := by
  cases h with
  | done h1 => exact if_neg (Ne.symm he)
  | send h1 => exact if_neg (Ne.symm he)
  | recv h1 => exact if_neg (Ne.symm he)


/-! ## Two threads that share a vector -/

section examples

def exCfg : Cfg := ⟨1, 1, false⟩

/-- `k` accesses of thread `t`, with fresh memory at `q` and above -/
def Act.times (t k q : Nat) : List (Act Nat) := (List.range k).map fun i => .run t (q + i) 0

/-- a command, without interruption -/
def Act.whole (t : Nat) (x : Cmd Nat) (k q : Nat) : List (Act Nat) := .start t x :: Act.times t k q ++ [.finish t]

/-- thread 0 makes a vector of 5, 6, 7 and passes a copy on to thread 1 -/
def exShared : List (Act Nat) :=
  Act.whole 0 .make 2 10 ++ Act.whole 0 (.pushIn 0 5) 4 20 ++ Act.whole 0 (.pushIn 0 6) 2 30 ++ Act.whole 0 (.pushIn 0 7) 5 40 ++ Act.whole 0 (.copy 0) 2 50 ++ [.send 0 1, .recv 1 0]

/-- both change the first element in place, one access of each at a time -/
def exBoth : List (Act Nat) := exShared ++ [.start 0 (.updateIn 0 0 (· + 10)), .start 1 (.updateIn 0 0 (· + 20))] ++
  (List.range 16).flatMap (fun i => [.run 0 (100 + 2 * i) 0, .run 1 (101 + 2 * i) 0])

/-- and read it, and destroy their vectors -/
def exEnd : List (Act Nat) := exBoth ++ Act.times 0 2 0 ++ [.finish 0] ++ Act.times 1 8 0 ++ [.finish 1] ++
  Act.whole 1 (.get 0 0) 2 0 ++ Act.whole 0 (.get 0 0) 2 0 ++ Act.whole 0 (.get 0 2) 1 0 ++ Act.whole 0 (.drop 0) 8 0 ++ Act.whole 1 (.drop 0) 10 0

/-- thread 1 reads the first element and is about to destroy its vector; thread 0 sees that the root is its own now and is about to
change it -/
def exEarly : List (Act Nat) := exShared ++ Act.whole 1 (.get 0 0) 2 60 ++ [.start 0 (.updateIn 0 0 (· + 10)), .start 1 (.drop 0), .run 1 0 0, .run 0 0 0, .run 0 0 0, .run 0 0 0]

def exWorld (as : List (Act Nat)) : World Nat := ((World.init exCfg 1 2).acts exCfg 1 2 2 as).getD (World.init exCfg 1 2)

theorem exWorld_reached (as : List (Act Nat)) : Reached exCfg 1 2 2 (exWorld as) := by
  unfold exWorld
  cases h : (World.init exCfg 1 2).acts exCfg 1 2 2 as with
  | none => exact .init
  | some w => exact World.acts_reached .init h

/-- what was read, and by whom -/
def World.reads (w : World Nat) : List (Nat × Nat) := w.log.filterMap fun e => match e with
  | .done t _ (some x) => some (t, x)
  | _ => none

def World.doing (w : World Nat) (t : Nat) : Option (Nat × Cls) := match (w.th t).phase with
  | .idle _ => none
  | .busy _ p => p.next

/-- both are at work on the new leaves they made, and thread 1 is about to give up the old one -/
example : Reached exCfg 1 2 2 (exWorld exBoth) ∧ (exWorld exBoth).doing 0 = some (114, .write) ∧ (exWorld exBoth).doing 1 = some (21, .count) :=
  ⟨exWorld_reached _, by decide +kernel, by decide +kernel⟩

/-- each reads what it wrote, and the last element, which they share -/
example : Reached exCfg 1 2 2 (exWorld exEnd) ∧ (exWorld exEnd).reads = [(1, 25), (0, 15), (0, 7)] ∧ (exWorld exEnd).log.length = 14 ∧ (exWorld exEnd).now = 81 :=
  ⟨exWorld_reached _, by decide +kernel, by decide +kernel, by decide +kernel⟩

/-- all is given up, as `C48_released` asks for -/
example : ((exWorld exEnd).th 0).phase.vectors.map List.length = some 0 ∧ ((exWorld exEnd).th 1).phase.vectors.map List.length = some 0 ∧ (exWorld exEnd).pool.length = 0 :=
  ⟨by decide +kernel, by decide +kernel, by decide +kernel⟩

/-- Thread 0 is about to write to the root.  Access number 16 was when thread 1 read it; it is known to thread 0 as thread 1 gave up its
reference (18) before thread 0 asked whether it has the only one (19). -/
example : Reached exCfg 1 2 2 (exWorld exEarly) ∧ (exWorld exEarly).doing 0 = some (42, .write) ∧ (exWorld exEarly).doing 1 = some (40, .count) ∧
    (16, Cls.read) ∈ (exWorld exEarly).clk.acc 42 ∧ 16 ∈ ((exWorld exEarly).th 0).know ∧ 16 ∈ (exWorld exEarly).clk.rel 42 :=
  ⟨exWorld_reached _, by decide +kernel, by decide +kernel, by decide +kernel, by decide +kernel, by decide +kernel⟩

def World.allocates (w : World Nat) (t : Nat) : Bool := match (w.th t).phase with
  | .busy _ (.alloc ..) => true
  | _ => false

/-- Thread 0 may also see the count as it was before thread 1 gave up its reference.  Then it copies the root, as it would if it was shared;
but it can not see an older value, as it knows that it made the copy itself. -/
def exStale (i : Nat) : List (Act Nat) := exShared ++ [.start 0 (.updateIn 0 0 (· + 10)), .start 1 (.drop 0), .run 1 0 0, .run 0 100 i]

example : ((World.init exCfg 1 2).acts exCfg 1 2 2 (exStale 0)).isSome = true ∧ ((World.init exCfg 1 2).acts exCfg 1 2 2 (exStale 1)).isSome = true ∧ ((World.init exCfg 1 2).acts exCfg 1 2 2 (exStale 2)).isSome = false ∧
    ((exWorld (exStale 0)).hist 42).map Mod.val = [1, 2, 1] ∧ (exWorld (exStale 0)).allocates 0 = false ∧ (exWorld (exStale 1)).allocates 0 = true :=
  ⟨by decide +kernel, by decide +kernel, by decide +kernel, by decide +kernel, by decide +kernel, by decide +kernel⟩


/-- not everything is known: thread 0 does not know of the element being read when thread 1 still has the vector -/
example : ((exWorld (exShared ++ Act.whole 1 (.get 0 0) 2 60)).th 0).know.contains 16 = false := by decide +kernel

end examples

end Thr
