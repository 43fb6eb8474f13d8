import Verif.Heap.Adaptors

/-!
# The lock-free `free_list_heap` (`heap/free_list_heap.hpp`)

Any number of threads, every interleaving of their atomic steps, sequentially consistent.  `next` is the first word of a
block: `free_list_node::next` while it is in the list, and free for the client to write otherwise (the client of this heap
is `thread_local_free_list_heap`, which links blocks through the same word).
-/

namespace Conc.FreeList

open Heap (put Link put_ne put_self)

/-- where a thread is -/
inductive PC where
  | idle
  /-- top of the loop of `allocate` (40) -/
  | a1
  /-- has read `n` from `head` (40), is to read `n->next` (45) -/
  | a2 (n : Nat)
  /-- is to do the compare-exchange (45) -/
  | a3 (n nx : Nat)
  /-- has taken `n`, is to decrement the count (46) -/
  | a4 (n : Nat)
  /-- `deallocate(p)`: is to read the count (58) -/
  | d0 (p : Nat)
  /-- is to give `p` back to the base heap (59) -/
  | b0 (p : Nat)
  /-- top of the loop: is to read `head` (63) -/
  | d1 (p : Nat)
  /-- is to write `n->next` (63) -/
  | d2 (p h : Nat)
  /-- is to do the compare-exchange (64) -/
  | d3 (p : Nat)
  /-- is to increment the count (65) -/
  | d4
deriving DecidableEq, Repr

structure St where
  /-- `head().data`; 0 is null -/
  head : Nat
  /-- `head().count`: a `size_t`, which a pop that is quicker than the push can take below 0, that is, wrap around -/
  count : Int
  next : Nat → Nat
  /-- blocks obtained from the base heap and not given back to it -/
  live : List Nat
  /-- blocks that `allocate` returned and that were not passed to `deallocate` since -/
  held : List Nat
  pc : List PC
  /-- something undefined has happened -/
  fault : Bool

/-- `head_{{nullptr}, {0}}` (79), `T` threads -/
def init (T : Nat) (m : Nat → Nat) : St := ⟨0, 0, m, [], [], List.replicate T .idle, false⟩

inductive Act where
  /-- call `allocate` -/
  | alloc
  /-- call `deallocate(p)` for a block that is held -/
  | free (p : Nat)
  /-- a client writes to a block that it holds -/
  | scribble (p v : Nat)
  /-- next step of the call in progress; `c`: the block that the base heap gives, if asked; `weak`: the compare-exchange
  fails spuriously -/
  | go (c : Nat) (weak : Bool)
deriving DecidableEq, Repr

/-- is the count, as a `size_t`, at least `Limit` -/
def atLimit (L : Nat) (count : Int) : Bool := decide (count < 0) || decide ((L : Int) ≤ count)

/-- thread `t` does one step -/
def step (L : Nat) (t : Nat) (a : Act) (s : St) : Option St :=
  match a, s.pc[t]? with
  | .alloc, some .idle => some { s with pc := s.pc.set t .a1 }
  | .free p, some .idle =>
      if p ∈ s.held then some { s with held := s.held.erase p, pc := s.pc.set t (.d0 p) } else none
  | .scribble p v, some .idle => if p ∈ s.held then some { s with next := put s.next p v } else none
  | .go c weak, some pc =>
      match pc with
      | .idle => none
      | .a1 =>
          if s.head = 0 then
            if c ≠ 0 ∧ c ∉ s.live then
              some { s with live := c :: s.live, held := c :: s.held, pc := s.pc.set t .idle }
            else none
          else some { s with pc := s.pc.set t (.a2 s.head) }
      | .a2 n =>
          if n ∈ s.live then some { s with pc := s.pc.set t (.a3 n (s.next n)) } else some { s with fault := true }
      | .a3 n nx =>
          if s.head = n ∧ weak = false then some { s with head := nx, pc := s.pc.set t (.a4 n) }
          else some { s with pc := s.pc.set t .a1 }
      | .a4 n => some { s with count := s.count - 1, held := n :: s.held, pc := s.pc.set t .idle }
      | .d0 p => some { s with pc := s.pc.set t (if atLimit L s.count then .b0 p else .d1 p) }
      | .b0 p =>
          if p ∈ s.live then some { s with live := s.live.erase p, pc := s.pc.set t .idle }
          else some { s with fault := true }
      | .d1 p => some { s with pc := s.pc.set t (.d2 p s.head) }
      | .d2 p h =>
          if p ∈ s.live then some { s with next := put s.next p h, pc := s.pc.set t (.d3 p) }
          else some { s with fault := true }
      | .d3 p =>
          if p ∈ s.live then
            if s.head = s.next p ∧ weak = false then some { s with head := p, pc := s.pc.set t .d4 }
            else some { s with next := put s.next p s.head, pc := s.pc.set t (.d1 p) }
          else some { s with fault := true }
      | .d4 => some { s with count := s.count + 1, pc := s.pc.set t .idle }
  | _, _ => none

def run (L : Nat) : List (Nat × Act) → St → Option St
  | [], s => some s
  | (t, a) :: rest, s => (step L t a s).bind (run L rest)

/-! ### The list hands out a block twice -/

/-- two blocks in the list, then: thread 0 reads `head = A` and `A->next = B`; thread 1 takes `A` and `B`, gives `A` back;
thread 0's compare-exchange succeeds and makes `B` the head, and the next `allocate` returns `B` again -/
def abaSchedule : List (Nat × Act) :=
  let g := Act.go 0 false
  [(1, .alloc), (1, .go 20 false), (1, .alloc), (1, .go 10 false),
   (1, .free 20), (1, g), (1, g), (1, g), (1, g), (1, g),
   (1, .free 10), (1, g), (1, g), (1, g), (1, g), (1, g),
   (0, .alloc), (0, g), (0, g),
   (1, .alloc), (1, g), (1, g), (1, g), (1, g),
   (1, .alloc), (1, g), (1, g), (1, g), (1, g),
   (1, .free 10), (1, g), (1, g), (1, g), (1, g), (1, g),
   (0, g), (0, g),
   (0, .alloc), (0, g), (0, g), (0, g), (0, g)]

/-- **C34 is false of the lock-free list**: two `allocate`s return the same block, with nobody having given it back in
between (F6; the ABA problem). -/
theorem C34_lockfree_not_exclusive :
    ∃ sched s, run 100 sched (init 2 fun _ => 0) = some s ∧ s.fault = false ∧ ¬ s.held.Nodup :=
  ⟨abaSchedule, _, rfl, by decide +kernel, by decide +kernel⟩

/-- thread 0 reads `head = 10`; thread 1 takes block 10 while thread 2 fills the list, and gives it back to the base heap;
thread 0 then reads `n->next` from it -/
def freedSchedule : List (Nat × Act) :=
  let g := Act.go 0 false
  [(1, .alloc), (1, .go 20 false), (1, .alloc), (1, .go 10 false),
   (1, .free 10), (1, g), (1, g), (1, g), (1, g), (1, g),
   (0, .alloc), (0, g),
   (1, .alloc), (1, g), (1, g), (1, g), (1, g),
   (2, .free 20), (2, g), (2, g), (2, g), (2, g), (2, g),
   (1, .free 10), (1, g), (1, g),
   (0, g)]

/-- … and `allocate` may read a block that has been given back to the base heap -/
theorem C34_lockfree_use_after_free :
    ∃ sched s, run 1 sched (init 3 fun _ => 0) = some s ∧ s.fault = true :=
  ⟨freedSchedule, _, rfl, by decide +kernel⟩

/-! ### It is correct when `allocate`s do not overlap -/

/-- in the window of `allocate` between reading `head` and the compare-exchange -/
def PC.popping : PC → Bool
  | .a2 _ | .a3 _ _ => true
  | _ => false

/-- at most one thread is in that window -/
def Solo (s : St) : Prop := (s.pc.filter PC.popping).length ≤ 1

theorem filter_one : ∀ {pc : List PC}, (pc.filter PC.popping).length ≤ 1 → ∀ {i j : Nat} {p q : PC}, pc[i]? = some p →
    pc[j]? = some q → p.popping = true → q.popping = true → i = j
  | [], _, i, j, p, q, h1, _, _, _ => by simp at h1
  | c :: pc, hl, i, j, p, q, h1, h2, hp, hq => by
    have hpos : ∀ {k : Nat} {r : PC}, pc[k]? = some r → r.popping = true → 0 < (pc.filter PC.popping).length := fun hk hr =>
      List.length_pos_of_mem (List.mem_filter.mpr ⟨List.mem_of_getElem? hk, hr⟩)
    cases i with
    | zero =>
      cases j with
      | zero => rfl
      | succ j =>
        simp only [List.getElem?_cons_zero, Option.some.injEq, List.getElem?_cons_succ] at h1 h2
        subst h1
        have := hpos h2 hq
        rw [List.filter_cons_of_pos hp, List.length_cons] at hl
        omega
    | succ i =>
      simp only [List.getElem?_cons_succ] at h1
      cases j with
      | zero =>
        simp only [List.getElem?_cons_zero, Option.some.injEq] at h2
        subst h2
        have := hpos h1 hp
        rw [List.filter_cons_of_pos hq, List.length_cons] at hl
        omega
      | succ j =>
        simp only [List.getElem?_cons_succ] at h2
        have hl' : (pc.filter PC.popping).length ≤ 1 := by
          refine Nat.le_trans ?_ hl
          rw [List.filter_cons]
          split <;> simp
        exact congrArg _ (filter_one hl' h1 h2 hp hq)

/-- a schedule during which this is so -/
def SoloRun (L : Nat) : List (Nat × Act) → St → Prop
  | [], s => Solo s
  | (t, a) :: rest, s => Solo s ∧ match step L t a s with
      | some s' => SoloRun L rest s'
      | none => True

instance (s : St) : Decidable (Solo s) := inferInstanceAs (Decidable (_ ≤ _))

instance decSoloRun (L : Nat) : (sched : List (Nat × Act)) → (s : St) → Decidable (SoloRun L sched s)
  | [], s => inferInstanceAs (Decidable (Solo s))
  | (t, a) :: rest, s => by
    unfold SoloRun
    cases step L t a s with
    | none => exact inferInstanceAs (Decidable (_ ∧ True))
    | some s' =>
      have := decSoloRun L rest s'
      exact inferInstanceAs (Decidable (_ ∧ SoloRun L rest s'))

/-- the block that a thread has in its hands -/
def PC.blk : PC → List Nat
  | .a4 n => [n]
  | .d0 p | .b0 p | .d1 p | .d2 p _ | .d3 p => [p]
  | _ => []

/-- contribution to the difference between list and count -/
def PC.popped : PC → Nat
  | .a4 _ => 1
  | _ => 0

def PC.pushed : PC → Nat
  | .d4 => 1
  | _ => 0

/-- decided to push, not done so -/
def PC.pending : PC → Nat
  | .d1 _ | .d2 _ _ | .d3 _ => 1
  | _ => 0

def sumBy (f : PC → Nat) (pc : List PC) : Nat := (pc.map f).sum

structure Inv (L T : Nat) (s : St) (ch : List Nat) : Prop where
  len : s.pc.length = T
  link : Link s.next s.head ch
  perm : s.live.Perm (ch ++ (s.held ++ s.pc.flatMap PC.blk))
  nodup : s.live.Nodup
  nz : 0 ∉ s.live
  pop2 : ∀ (i : Nat) n, s.pc[i]? = some (.a2 n) → n ∈ ch
  pop3 : ∀ (i : Nat) n nx, s.pc[i]? = some (.a3 n nx) → n ∈ ch ∧ s.next n = nx
  cnt : s.count + sumBy PC.pushed s.pc = ch.length + sumBy PC.popped s.pc
  bound : ch.length + sumBy PC.pending s.pc + 1 ≤ L + T
  ok : s.fault = false

theorem sumBy_set (f : PC → Nat) : ∀ {pc : List PC} {t : Nat} {p q : PC}, pc[t]? = some p →
    sumBy f (pc.set t q) + f p = sumBy f pc + f q
  | [], t, p, q, h => by simp at h
  | c :: pc, 0, p, q, h => by simp at h; subst h; simp [sumBy]; omega
  | c :: pc, t + 1, p, q, h => by
    have := sumBy_set f (pc := pc) (t := t) (p := p) (q := q) (by simpa using h)
    simp only [sumBy, List.set_cons_succ, List.map_cons, List.sum_cons] at *
    omega

theorem blk_set : ∀ {pc : List PC} {t : Nat} {p q : PC}, pc[t]? = some p →
    (p.blk ++ (pc.set t q).flatMap PC.blk).Perm (q.blk ++ pc.flatMap PC.blk)
  | [], t, p, q, h => by simp at h
  | c :: pc, 0, p, q, h => by
    simp at h; subst h
    simp only [List.set_cons_zero, List.flatMap_cons]
    rw [← List.append_assoc, ← List.append_assoc]
    exact List.Perm.append_right _ List.perm_append_comm
  | c :: pc, t + 1, p, q, h => by
    have := blk_set (pc := pc) (t := t) (p := p) (q := q) (by simpa using h)
    simp only [List.set_cons_succ, List.flatMap_cons]
    have e : ∀ a b d : List Nat, (a ++ (b ++ d)).Perm (b ++ (a ++ d)) := by
      intro a b d
      rw [← List.append_assoc, ← List.append_assoc]
      exact List.Perm.append_right _ List.perm_append_comm
    exact (e _ _ _).trans ((List.Perm.append_left _ this).trans (e _ _ _))

theorem sum_three : ∀ (pc : List PC), sumBy PC.popped pc + sumBy PC.pushed pc + sumBy PC.pending pc ≤ pc.length
  | [] => by simp [sumBy]
  | p :: pc => by
    have := sum_three pc
    simp only [sumBy, List.map_cons, List.sum_cons, List.length_cons] at *
    cases p <;> simp [PC.popped, PC.pushed, PC.pending] <;> omega

theorem blk_same {pc : List PC} {t : Nat} {p q : PC} (h : pc[t]? = some p) (he : p.blk = q.blk) :
    ((pc.set t q).flatMap PC.blk).Perm (pc.flatMap PC.blk) := by
  have := blk_set (q := q) h
  rw [he] at this
  exact (List.perm_append_left_iff _).mp this

theorem blk_put {pc : List PC} {t x : Nat} {p q : PC} (h : pc[t]? = some p) (h1 : p.blk = []) (h2 : q.blk = [x]) :
    ((pc.set t q).flatMap PC.blk).Perm (x :: pc.flatMap PC.blk) := by
  have := blk_set (q := q) h
  rw [h1, h2] at this
  exact this

theorem blk_take {pc : List PC} {t x : Nat} {p q : PC} (h : pc[t]? = some p) (h1 : p.blk = [x]) (h2 : q.blk = []) :
    (x :: (pc.set t q).flatMap PC.blk).Perm (pc.flatMap PC.blk) := by
  have := blk_set (q := q) h
  rw [h1, h2] at this
  exact this

theorem get_set {pc : List PC} {t i : Nat} {q r : PC} (h : (pc.set t q)[i]? = some r) :
    (i = t ∧ r = q) ∨ (i ≠ t ∧ pc[i]? = some r) := by
  by_cases hi : i = t
  · subst hi
    have hl : i < pc.length := by
      have := (List.getElem?_eq_some_iff.mp h).1
      simpa using this
    rw [List.getElem?_set_self hl] at h
    exact .inl ⟨rfl, by cases h; rfl⟩
  · rw [List.getElem?_set_ne (Ne.symm hi)] at h
    exact .inr ⟨hi, h⟩

theorem mem_blk {pc : List PC} {t x : Nat} {p : PC} (h : pc[t]? = some p) (hx : p.blk = [x]) : x ∈ pc.flatMap PC.blk :=
  List.mem_flatMap.mpr ⟨p, List.mem_of_getElem? h, by simp [hx]⟩

section
variable {L T : Nat} {s : St} {ch : List Nat}

theorem Inv.all_nodup (hi : Inv L T s ch) : (ch ++ (s.held ++ s.pc.flatMap PC.blk)).Nodup := hi.perm.nodup_iff.mp hi.nodup

/-- a block in a client's or thread's hands is not in the list -/
theorem Inv.not_chain (hi : Inv L T s ch) {x : Nat} (hx : x ∈ s.held ++ s.pc.flatMap PC.blk) {y : Nat} (hy : y ∈ ch) : y ≠ x := by
  rintro rfl
  exact (List.nodup_append.mp hi.all_nodup).2.2 y hy y hx rfl

theorem Inv.live_of (hi : Inv L T s ch) {x : Nat} (hx : x ∈ ch ++ (s.held ++ s.pc.flatMap PC.blk)) : x ∈ s.live :=
  hi.perm.mem_iff.mpr hx

/-- writing to a block outside the list -/
theorem Inv.put (hi : Inv L T s ch) {x v : Nat} (hx : x ∈ s.held ++ s.pc.flatMap PC.blk) :
    Inv L T { s with next := put s.next x v } ch where
  len := hi.len
  link := Heap.link_frame hi.link fun _ hq => put_ne (hi.not_chain hx hq)
  perm := hi.perm
  nodup := hi.nodup
  nz := hi.nz
  pop2 := hi.pop2
  pop3 := fun i n nx h => ⟨(hi.pop3 i n nx h).1, (put_ne (hi.not_chain hx (hi.pop3 i n nx h).1)).trans (hi.pop3 i n nx h).2⟩
  cnt := hi.cnt
  bound := hi.bound
  ok := hi.ok

/-- a step of a thread that keeps the block in its hands and does not touch the list -/
theorem Inv.move (hi : Inv L T s ch) {t : Nat} {p q : PC} (h : s.pc[t]? = some p) (hb : p.blk = q.blk)
    (h1 : q.popped = p.popped) (h2 : q.pushed = p.pushed) (h3 : q.pending ≤ p.pending)
    (h4 : ∀ n, q = .a2 n → n ∈ ch) (h5 : ∀ n nx, q = .a3 n nx → n ∈ ch ∧ s.next n = nx) :
    Inv L T { s with pc := s.pc.set t q } ch where
  len := by simpa using hi.len
  link := hi.link
  perm := hi.perm.trans (List.Perm.append_left _ (List.Perm.append_left _ (blk_same h hb).symm))
  nodup := hi.nodup
  nz := hi.nz
  pop2 := fun i n hn => by
    rcases get_set hn with ⟨-, hq⟩ | ⟨-, hn⟩
    · exact h4 n hq.symm
    · exact hi.pop2 i n hn
  pop3 := fun i n nx hn => by
    rcases get_set hn with ⟨-, hq⟩ | ⟨-, hn⟩
    · exact h5 n nx hq.symm
    · exact hi.pop3 i n nx hn
  cnt := by
    have e1 := sumBy_set PC.pushed (q := q) h
    have e2 := sumBy_set PC.popped (q := q) h
    have := hi.cnt
    simp only; omega
  bound := by
    have e1 := sumBy_set PC.pending (q := q) h
    have := hi.bound
    simp only; omega
  ok := hi.ok

end

theorem step_inv {L T : Nat} {t : Nat} {a : Act} {s s' : St} {ch : List Nat} (hi : Inv L T s ch) (hsolo : Solo s)
    (hs : step L t a s = some s') : ∃ ch', Inv L T s' ch' := by
  unfold step at hs
  split at hs
  · -- alloc
    rename_i hpc
    cases hs
    exact ⟨ch, hi.move hpc rfl rfl rfl (Nat.le_refl _) (fun n h => by cases h) (fun n nx h => by cases h)⟩
  · -- free
    rename_i p hpc
    split at hs
    · rename_i hp
      cases hs
      refine ⟨ch, ?_⟩
      have hperm : (s.held ++ s.pc.flatMap PC.blk).Perm (s.held.erase p ++ (s.pc.set t (.d0 p)).flatMap PC.blk) := by
        refine (List.Perm.append_right _ (List.perm_cons_erase hp)).trans ?_
        refine List.Perm.trans ?_ (List.Perm.append_left _ (blk_put hpc rfl rfl).symm)
        exact List.perm_middle.symm
      have hm := hi.move (q := .idle) hpc rfl rfl rfl (Nat.le_refl _) (fun n h => by cases h) (fun n nx h => by cases h)
      refine ⟨by simpa using hi.len, hi.link, hi.perm.trans (List.Perm.append_left _ hperm), hi.nodup, hi.nz, ?_, ?_, ?_, ?_, hi.ok⟩
      · intro i n hn
        rcases get_set hn with ⟨-, hq⟩ | ⟨-, hn⟩
        · cases hq
        · exact hi.pop2 i n hn
      · intro i n nx hn
        rcases get_set hn with ⟨-, hq⟩ | ⟨-, hn⟩
        · cases hq
        · exact hi.pop3 i n nx hn
      · have e1 := sumBy_set PC.pushed (q := .d0 p) hpc
        have e2 := sumBy_set PC.popped (q := .d0 p) hpc
        have := hi.cnt
        simp only [PC.pushed, PC.popped] at *; omega
      · have e1 := sumBy_set PC.pending (q := .d0 p) hpc
        have := hi.bound
        simp only [PC.pending] at *; omega
    · cases hs
  · -- scribble
    split at hs
    · rename_i hp
      cases hs
      exact ⟨ch, hi.put (List.mem_append_left _ hp)⟩
    · cases hs
  · -- go
    rename_i c weak pc hpc
    split at hs
    · cases hs
    · -- a1
      split at hs
      · rename_i h0
        split at hs
        · rename_i hc
          cases hs
          have hm := hi.move (q := .idle) hpc rfl rfl rfl (Nat.le_refl _) (fun n h => by cases h) (fun n nx h => by cases h)
          refine ⟨ch, hm.len, hm.link, ?_, List.nodup_cons.mpr ⟨hc.2, hi.nodup⟩, ?_, hm.pop2, hm.pop3, hm.cnt, hm.bound, hm.ok⟩
          · exact (List.Perm.cons c hm.perm).trans List.perm_middle.symm
          · intro hz
            rcases List.mem_cons.mp hz with hz | hz
            · exact hc.1 hz.symm
            · exact hi.nz hz
        · cases hs
      · rename_i h0
        cases hs
        refine ⟨ch, hi.move hpc rfl rfl rfl (Nat.le_refl _) (fun n h => ?_) (fun n nx h => by cases h)⟩
        cases h
        have hl := hi.link
        cases ch with
        | nil => exact absurd hl h0
        | cons q ch => rw [hl.1]; simp
    · -- a2
      rename_i n
      have hn := hi.pop2 t n hpc
      rw [if_pos (hi.live_of (List.mem_append_left _ hn))] at hs
      cases hs
      exact ⟨ch, hi.move hpc rfl rfl rfl (Nat.le_refl _) (fun n h => by cases h) (fun n nx h => by cases h; exact ⟨hn, rfl⟩)⟩
    · -- a3
      rename_i n nx
      obtain ⟨hn, hnx⟩ := hi.pop3 t n nx hpc
      split at hs
      · rename_i hh
        cases hs
        have hl := hi.link
        cases ch with
        | nil => cases hn
        | cons q ch =>
          obtain ⟨e1, e2, e3⟩ := hl
          have hqn : q = n := e1.symm.trans hh.1
          subst hqn
          rw [hh.1, hnx] at e3
          have hno : ∀ (i : Nat) r, (s.pc.set t (.a4 q))[i]? = some r → r.popping = true → False := by
            intro i r hr hp
            rcases get_set hr with ⟨-, hq⟩ | ⟨hne, hr⟩
            · subst hq; cases hp
            · exact hne (filter_one hsolo hr hpc hp rfl)
          refine ⟨ch, by simpa using hi.len, e3, ?_, hi.nodup, hi.nz, fun i n h => (hno i _ h rfl).elim,
            fun i n nx h => (hno i _ h rfl).elim, ?_, ?_, hi.ok⟩
          · refine hi.perm.trans ?_
            rw [List.cons_append]
            refine List.Perm.trans ?_ (List.Perm.append_left _ (List.Perm.append_left _ (blk_put hpc rfl rfl).symm))
            rw [← List.append_assoc, ← List.append_assoc]
            exact List.perm_middle.symm
          · have e1 := sumBy_set PC.pushed (q := .a4 q) hpc
            have e2 := sumBy_set PC.popped (q := .a4 q) hpc
            have := hi.cnt
            simp only [PC.pushed, PC.popped, List.length_cons] at *; omega
          · have e1 := sumBy_set PC.pending (q := .a4 q) hpc
            have := hi.bound
            simp only [PC.pending, List.length_cons] at *; omega
      · cases hs
        exact ⟨ch, hi.move hpc rfl rfl rfl (Nat.le_refl _) (fun n h => by cases h) (fun n nx h => by cases h)⟩
    · -- a4
      rename_i n
      cases hs
      refine ⟨ch, by simpa using hi.len, hi.link, ?_, hi.nodup, hi.nz, ?_, ?_, ?_, ?_, hi.ok⟩
      · refine hi.perm.trans (List.Perm.append_left _ ?_)
        refine (List.Perm.append_left _ (blk_take (q := .idle) hpc rfl rfl).symm).trans ?_
        exact List.perm_middle
      · intro i n hn
        rcases get_set hn with ⟨-, hq⟩ | ⟨-, hn⟩
        · cases hq
        · exact hi.pop2 i n hn
      · intro i n nx hn
        rcases get_set hn with ⟨-, hq⟩ | ⟨-, hn⟩
        · cases hq
        · exact hi.pop3 i n nx hn
      · have e1 := sumBy_set PC.pushed (q := .idle) hpc
        have e2 := sumBy_set PC.popped (q := .idle) hpc
        have := hi.cnt
        simp only [PC.pushed, PC.popped] at *; omega
      · have e1 := sumBy_set PC.pending (q := .idle) hpc
        have := hi.bound
        simp only [PC.pending] at *; omega
    · -- d0
      rename_i p
      cases hs
      cases hlim : atLimit L s.count with
      | true => exact ⟨ch, hi.move hpc rfl rfl rfl (Nat.le_refl _) (fun n h => by cases h) (fun n nx h => by cases h)⟩
      | false =>
        have hm := hi.move (q := .b0 p) hpc rfl rfl rfl (Nat.le_refl _) (fun n h => by cases h) (fun n nx h => by cases h)
        simp only [Bool.false_eq_true, if_false]
        refine ⟨ch, by simpa using hi.len, hi.link, ?_, hi.nodup, hi.nz, ?_, ?_, ?_, ?_, hi.ok⟩
        · exact hi.perm.trans (List.Perm.append_left _ (List.Perm.append_left _ (blk_same (q := .d1 p) hpc rfl).symm))
        · intro i n hn
          rcases get_set hn with ⟨-, hq⟩ | ⟨-, hn⟩
          · cases hq
          · exact hi.pop2 i n hn
        · intro i n nx hn
          rcases get_set hn with ⟨-, hq⟩ | ⟨-, hn⟩
          · cases hq
          · exact hi.pop3 i n nx hn
        · have e1 := sumBy_set PC.pushed (q := .d1 p) hpc
          have e2 := sumBy_set PC.popped (q := .d1 p) hpc
          have := hi.cnt
          simp only [PC.pushed, PC.popped] at *; omega
        · have e1 := sumBy_set PC.pushed (q := .d1 p) hpc
          have e3 := sum_three (s.pc.set t (.d1 p))
          have hl := hi.len
          have hc := hi.cnt
          simp only [atLimit, Bool.or_eq_false_iff, decide_eq_false_iff_not] at hlim
          simp only [List.length_set, PC.pushed] at *
          omega
    · -- b0
      rename_i p
      have hp : p ∈ s.live := hi.live_of (List.mem_append_right _ (List.mem_append_right _ (mem_blk hpc rfl)))
      rw [if_pos hp] at hs
      cases hs
      refine ⟨ch, by simpa using hi.len, hi.link, ?_, hi.nodup.erase p, fun h => hi.nz (List.mem_of_mem_erase h), ?_, ?_, ?_, ?_, hi.ok⟩
      · have h1 : s.live.Perm (p :: (ch ++ (s.held ++ (s.pc.set t .idle).flatMap PC.blk))) := by
          refine hi.perm.trans ?_
          refine (List.Perm.append_left _ (List.Perm.append_left _ (blk_take (q := .idle) hpc rfl rfl).symm)).trans ?_
          refine (List.Perm.append_left _ List.perm_middle).trans ?_
          exact List.perm_middle
        have := h1.erase p
        rwa [List.erase_cons_head] at this
      · intro i n hn
        rcases get_set hn with ⟨-, hq⟩ | ⟨-, hn⟩
        · cases hq
        · exact hi.pop2 i n hn
      · intro i n nx hn
        rcases get_set hn with ⟨-, hq⟩ | ⟨-, hn⟩
        · cases hq
        · exact hi.pop3 i n nx hn
      · have e1 := sumBy_set PC.pushed (q := .idle) hpc
        have e2 := sumBy_set PC.popped (q := .idle) hpc
        have := hi.cnt
        simp only [PC.pushed, PC.popped] at *; omega
      · have e1 := sumBy_set PC.pending (q := .idle) hpc
        have := hi.bound
        simp only [PC.pending] at *; omega
    · -- d1
      cases hs
      exact ⟨ch, hi.move hpc rfl rfl rfl (Nat.le_refl _) (fun n h => by cases h) (fun n nx h => by cases h)⟩
    · -- d2
      rename_i p h
      have hb := mem_blk hpc (x := p) rfl
      rw [if_pos (hi.live_of (List.mem_append_right _ (List.mem_append_right _ hb)))] at hs
      cases hs
      have hm := hi.put (v := h) (List.mem_append_right _ hb)
      exact ⟨ch, hm.move hpc rfl rfl rfl (Nat.le_refl _) (fun n h => by cases h) (fun n nx h => by cases h)⟩
    · -- d3
      rename_i p
      have hb := mem_blk hpc (x := p) rfl
      have hpl := hi.live_of (List.mem_append_right _ (List.mem_append_right _ hb))
      rw [if_pos hpl] at hs
      split at hs
      · rename_i hh
        cases hs
        have hp0 : p ≠ 0 := by rintro rfl; exact hi.nz hpl
        refine ⟨p :: ch, by simpa using hi.len, ⟨rfl, hp0, by rw [← hh.1]; exact hi.link⟩, ?_, hi.nodup, hi.nz, ?_, ?_, ?_, ?_, hi.ok⟩
        · refine hi.perm.trans ?_
          refine (List.Perm.append_left _ (List.Perm.append_left _ (blk_take (q := .d4) hpc rfl rfl).symm)).trans ?_
          exact (List.Perm.append_left _ List.perm_middle).trans List.perm_middle
        · intro i n hn
          rcases get_set hn with ⟨-, hq⟩ | ⟨-, hn⟩
          · cases hq
          · exact List.mem_cons_of_mem _ (hi.pop2 i n hn)
        · intro i n nx hn
          rcases get_set hn with ⟨-, hq⟩ | ⟨-, hn⟩
          · cases hq
          · exact ⟨List.mem_cons_of_mem _ (hi.pop3 i n nx hn).1, (hi.pop3 i n nx hn).2⟩
        · have e1 := sumBy_set PC.pushed (q := .d4) hpc
          have e2 := sumBy_set PC.popped (q := .d4) hpc
          have := hi.cnt
          simp only [PC.pushed, PC.popped, List.length_cons] at *; omega
        · have e1 := sumBy_set PC.pending (q := .d4) hpc
          have := hi.bound
          simp only [PC.pending, List.length_cons] at *; omega
      · cases hs
        have hm := hi.put (v := s.head) (List.mem_append_right _ hb)
        exact ⟨ch, hm.move hpc rfl rfl rfl (Nat.le_refl _) (fun n h => by cases h) (fun n nx h => by cases h)⟩
    · -- d4
      cases hs
      refine ⟨ch, by simpa using hi.len, hi.link, ?_, hi.nodup, hi.nz, ?_, ?_, ?_, ?_, hi.ok⟩
      · exact hi.perm.trans (List.Perm.append_left _ (List.Perm.append_left _ (blk_same (q := .idle) hpc rfl).symm))
      · intro i n hn
        rcases get_set hn with ⟨-, hq⟩ | ⟨-, hn⟩
        · cases hq
        · exact hi.pop2 i n hn
      · intro i n nx hn
        rcases get_set hn with ⟨-, hq⟩ | ⟨-, hn⟩
        · cases hq
        · exact hi.pop3 i n nx hn
      · have e1 := sumBy_set PC.pushed (q := .idle) hpc
        have e2 := sumBy_set PC.popped (q := .idle) hpc
        have := hi.cnt
        simp only [PC.pushed, PC.popped] at *; omega
      · have e1 := sumBy_set PC.pending (q := .idle) hpc
        have := hi.bound
        simp only [PC.pending] at *; omega
  · cases hs

theorem flatMap_idle : ∀ T, (List.replicate T PC.idle).flatMap PC.blk = []
  | 0 => rfl
  | T + 1 => by simp [List.replicate_succ, PC.blk, flatMap_idle T]

theorem sum_idle (f : PC → Nat) (hf : f .idle = 0) : ∀ T, sumBy f (List.replicate T PC.idle) = 0
  | 0 => rfl
  | T + 1 => by
    have := sum_idle f hf T
    simp only [sumBy, List.replicate_succ, List.map_cons, List.sum_cons] at *
    omega

theorem init_inv (L T : Nat) (hT : 0 < T) (m : Nat → Nat) : Inv L T (init T m) [] := by
  have hno : ∀ (i : Nat) p, (List.replicate T PC.idle)[i]? = some p → p = .idle := fun i p h =>
    (List.mem_replicate.mp (List.mem_of_getElem? h)).2
  refine ⟨by simp [init], rfl, ?_, List.nodup_nil, by simp [init], ?_, ?_, ?_, ?_, rfl⟩
  · simp only [init, flatMap_idle]; exact List.Perm.refl _
  · intro i n h; cases hno i _ h
  · intro i n nx h; cases hno i _ h
  · simp only [init, sum_idle PC.pushed rfl, sum_idle PC.popped rfl]; rfl
  · simp only [init, sum_idle PC.pending rfl, List.length_nil]; omega

theorem run_inv {L T : Nat} : ∀ {sched : List (Nat × Act)} {s s' : St} {ch : List Nat}, Inv L T s ch → SoloRun L sched s →
    run L sched s = some s' → ∃ ch', Inv L T s' ch'
  | [], s, s', ch, hi, _, h => by cases h; exact ⟨ch, hi⟩
  | (t, a) :: rest, s, s', ch, hi, hr, h => by
    simp only [run] at h
    cases hs : step L t a s with
    | none => rw [hs] at h; cases h
    | some s1 =>
      rw [hs] at h
      obtain ⟨ch1, h1⟩ := step_inv hi hr.1 hs
      have h2 := hr.2
      rw [hs] at h2
      exact run_inv h1 h2 h

/-- **C34**, lock-free list, partial.  In every schedule in which no two threads are at once between reading `head` and the
compare-exchange of `allocate` (calls of `deallocate` may overlap with everything): nothing undefined happens, no block is
given to two clients, and the number of blocks that the base heap has outstanding beyond those held by clients or in the
hands of running calls — the cached blocks — is less than the limit plus the number of threads.
Missing: without the condition the claim is false (`C34_lockfree_not_exclusive`); the limit can be exceeded, by at most the
number of threads minus one, because the check and the increment of the count are separate steps. -/
theorem C34_lockfree_partial {L T : Nat} (hT : 0 < T) (m : Nat → Nat) (sched : List (Nat × Act)) (s : St)
    (hsolo : SoloRun L sched (init T m)) (h : run L sched (init T m) = some s) :
    s.fault = false ∧ s.held.Nodup ∧ (∀ p ∈ s.held, p ∈ s.live) ∧
      ∃ cached, s.live.Perm (cached ++ (s.held ++ s.pc.flatMap PC.blk)) ∧ cached.length < L + T := by
  obtain ⟨ch, hi⟩ := run_inv (init_inv L T hT m) hsolo h
  refine ⟨hi.ok, ?_, fun p hp => hi.live_of (by simp [hp]), ch, hi.perm, ?_⟩
  · have := List.nodup_append.mp hi.all_nodup
    exact (List.nodup_append.mp this.2.1).1
  · have := hi.bound; omega

/-- with one thread the condition always holds -/
theorem solo_one {L : Nat} : ∀ {sched : List (Nat × Act)} {s : St}, s.pc.length ≤ 1 → SoloRun L sched s
  | sched, s, hl => by
    have hS : Solo s := Nat.le_trans (List.length_filter_le _ _) hl
    match sched with
    | [] => exact hS
    | (t, a) :: rest =>
      refine ⟨hS, ?_⟩
      split
      · rename_i s' hs
        refine solo_one ?_
        have : s'.pc.length = s.pc.length := by
          unfold step at hs
          repeat' split at hs
          all_goals first | (cases hs; done) | (cases hs; simp)
        omega
      · trivial

/-- two overlapping `deallocate`s, one of which has to retry, and a compare-exchange of `allocate` that fails spuriously:
the condition holds, and the bound on the cached blocks is reached (limit 1, two threads, two cached blocks) -/
def overlapSchedule : List (Nat × Act) :=
  let g := Act.go 0 false
  [(1, .alloc), (1, .go 20 false), (1, .alloc), (1, .go 10 false),
   (1, .free 20), (0, .free 10), (1, g), (0, g), (1, g), (1, g), (0, g), (1, g), (0, g), (0, g), (0, g), (0, g), (0, g)]

example : (run 1 overlapSchedule (init 2 fun _ => 0)).map (fun s => (s.head, s.count, s.live, s.held, s.pc)) =
    some (10, 0, [10, 20], [], [.d4, .d4]) := by decide +kernel

example : SoloRun 1 (overlapSchedule ++ [(1, .go 0 false), (1, .alloc), (1, .go 0 false), (1, .go 0 false), (1, .go 0 true)])
    (init 2 fun _ => 0) := by decide +kernel

end Conc.FreeList
