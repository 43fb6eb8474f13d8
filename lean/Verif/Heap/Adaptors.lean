import Mathlib.Data.List.Perm.Basic

/-!
# Heaps and heap adaptors: `heap/*.hpp`

Every stack of adaptors is an expression; each has its own state (free lists), all share the memory and one
underlying heap.  Sizes are in bytes; a stored word (a pointer or size) is one cell at its first byte.
-/

namespace Heap

/-- address and size -/
abbrev Blk := Nat × Nat

def inB (x : Nat) (b : Blk) : Prop := b.1 ≤ x ∧ x < b.1 + b.2

instance (x : Nat) (b : Blk) : Decidable (inB x b) := inferInstanceAs (Decidable (_ ∧ _))

/-- a block given out by an underlying heap, and which heap -/
abbrev OB := Blk × Nat

/-- what the underlying heaps have given out, and memory -/
structure World where
  live : List OB
  mem : Nat → Nat

/-- result: done; not possible (the heap cannot return the address proposed for it, or is exhausted); undefined
behaviour or failed assertion -/
inductive R (α : Type) where
  | ok (a : α)
  | no
  | ub

def World.read (w : World) (x : Nat) : R Nat :=
  if ∃ b ∈ w.live, inB x b.1 then .ok (w.mem x) else .ub

def put (m : Nat → Nat) (x v : Nat) : Nat → Nat := fun y => if y = x then v else m y

def World.write (w : World) (x v : Nat) : R World :=
  if ∃ b ∈ w.live, inB x b.1 then .ok { w with mem := put w.mem x v } else .ub

def R.bind {α β : Type} : R α → (α → R β) → R β
  | .ok a, f => f a
  | .no, _ => .no
  | .ub, _ => .ub

/-- stacks of adaptors -/
inductive Expr where
  /-- an underlying heap: `malloc_heap.hpp`, `cpp_heap.hpp`, … ; `k` says which -/
  | base (k : Nat)
  /-- `identity_heap.hpp` 18-32, and `debug_size_heap` when disabled -/
  | identity (h : Expr)
  /-- `debug_size_heap.hpp` 24-63; `e` is `extra_size` -/
  | debugSize (e : Nat) (h : Expr)
  /-- `with_data.hpp` 22-43; `d` is `sizeof(T)`; with `T = free_list_node` this is `with_free_list_node` -/
  | withData (d : Nat) (h : Expr)
  /-- `split_heap.hpp` 20-41 -/
  | split (S : Nat) (small big : Expr)
  /-- `unsafe_free_list_heap.hpp`, and with `tl` `thread_local_free_list_heap.hpp`: a list for each thread -/
  | freeList (tl : Bool) (S L : Nat) (h : Expr)

/-- `sizeof(free_list_node)` -/
def W : Nat := 8

structure Head where
  data : Nat
  count : Nat

def Expr.St : Expr → Type
  | .base _ => Unit
  | .identity h | .debugSize _ h | .withData _ h => h.St
  | .split _ a b => a.St × b.St
  | .freeList _ _ _ h => (Nat → Head) × h.St

/-- all lists empty -/
def Expr.init : (h : Expr) → h.St
  | .base _ => ()
  | .identity h | .debugSize _ h | .withData _ h => h.init
  | .split _ a b => (a.init, b.init)
  | .freeList _ _ _ h => (fun _ => ⟨0, 0⟩, h.init)

/-- whose list -/
def slot (tl : Bool) (t : Nat) : Nat := if tl then t else 0

def setH (f : Nat → Head) (i : Nat) (v : Head) : Nat → Head := fun j => if j = i then v else f j

/-- `allocate(n)` on thread `t`; `c` is the address that the underlying heap returns, if it comes to that -/
def alloc (t c : Nat) : (h : Expr) → (n : Nat) → h.St → World → R (Nat × h.St × World)
  | .base k, n, s, w =>
      if 0 < c ∧ ∀ b ∈ w.live, c + n ≤ b.1.1 ∨ b.1.1 + b.1.2 ≤ c then
        .ok (c, s, { w with live := ((c, n), k) :: w.live })
      else .no
  | .identity h, n, s, w => alloc t c h n s w
  | .debugSize e h, n, s, w =>
      (alloc t c h (n + e) s w).bind fun r => (r.2.2.write r.1 n).bind fun w' => .ok (r.1 + e, r.2.1, w')
  | .withData d h, n, s, w =>
      (alloc t c h (n + d) s w).bind fun r => (r.2.2.write r.1 0).bind fun w' => .ok (r.1 + d, r.2.1, w')
  | .split S a b, n, s, w =>
      if n ≤ S then (alloc t c a n s.1 w).bind fun r => .ok (r.1, (r.2.1, s.2), r.2.2)
      else (alloc t c b n s.2 w).bind fun r => .ok (r.1, (s.1, r.2.1), r.2.2)
  | .freeList tl S _ h, n, s, w =>
      if n ≤ W + S ∧ W ≤ n then
        let hd := s.1 (slot tl t)
        if hd.data = 0 then (alloc t c h (S + W) s.2 w).bind fun r => .ok (r.1, (s.1, r.2.1), r.2.2)
        else (w.read hd.data).bind fun nx => .ok (hd.data, (setH s.1 (slot tl t) ⟨nx, hd.count - 1⟩, s.2), w)
      else .ub

/-- `deallocate(n, p)` on thread `t` -/
def dealloc (t : Nat) : (h : Expr) → (n p : Nat) → h.St → World → R (h.St × World)
  | .base k, n, p, s, w =>
      if ((p, n), k) ∈ w.live then .ok (s, { w with live := w.live.erase ((p, n), k) }) else .ub
  | .identity h, n, p, s, w => dealloc t h n p s w
  | .debugSize e h, n, p, s, w =>
      if p < e then .ub
      else (w.read (p - e)).bind fun k => if k = n then dealloc t h (n + e) (p - e) s w else .ub
  | .withData d h, n, p, s, w => if p < d then .ub else dealloc t h (n + d) (p - d) s w
  | .split S a b, n, p, s, w =>
      if n ≤ S then (dealloc t a n p s.1 w).bind fun r => .ok ((r.1, s.2), r.2)
      else (dealloc t b n p s.2 w).bind fun r => .ok ((s.1, r.1), r.2)
  | .freeList tl S L h, n, p, s, w =>
      if n ≤ W + S ∧ W ≤ n then
        let hd := s.1 (slot tl t)
        if L ≤ hd.count then (dealloc t h (S + W) p s.2 w).bind fun r => .ok ((s.1, r.1), r.2)
        else (w.write p hd.data).bind fun w' => .ok ((setH s.1 (slot tl t) ⟨p, hd.count + 1⟩, s.2), w')
      else .ub

/-- the loop of `clear` (`unsafe_free_list_heap.hpp` 78-87); `fuel` bounds the number of rounds, and running out of
it counts as undefined -/
def clearLoop (t : Nat) (S : Nat) (h : Expr) : (fuel : Nat) → Head → h.St → World → R (Head × h.St × World)
  | 0, hd, s, w => if hd.data = 0 then .ok (hd, s, w) else .ub
  | fuel + 1, hd, s, w =>
      if hd.data = 0 then .ok (hd, s, w)
      else
        (w.read hd.data).bind fun nx => (dealloc t h (S + W) hd.data s w).bind fun r =>
          clearLoop t S h fuel ⟨nx, hd.count - 1⟩ r.1 r.2

/-- end of thread `t` (`thread_local_free_list_heap.hpp` 26): its lists go back -/
def clear (t : Nat) : (h : Expr) → h.St → World → R (h.St × World)
  | .base _, s, w => .ok (s, w)
  | .identity h, s, w | .debugSize _ h, s, w | .withData _ h, s, w => clear t h s w
  | .split _ a b, s, w =>
      (clear t a s.1 w).bind fun r => (clear t b s.2 r.2).bind fun q => .ok ((r.1, q.1), q.2)
  | .freeList false _ _ h, s, w => (clear t h s.2 w).bind fun r => .ok ((s.1, r.1), r.2)
  | .freeList true S _ h, s, w =>
      (clearLoop t S h (s.1 t).count (s.1 t) s.2 w).bind fun r =>
        (clear t h r.2.1 r.2.2).bind fun q => .ok ((setH s.1 t r.1, q.1), q.2)

/-! ### What the state of a stack means -/

/-- `chain` is the linked list that starts at `p` -/
def Link (m : Nat → Nat) : Nat → List Nat → Prop
  | p, [] => p = 0
  | p, q :: rest => p = q ∧ p ≠ 0 ∧ Link m (m p) rest

/-- number of lists -/
def lists (tl : Bool) (T : Nat) : Nat := if tl then T else 1

/-- For `T` threads: the stack has obtained exactly the blocks `own` from the underlying heap and given exactly `cli` to
its clients. -/
def Own (T : Nat) : (h : Expr) → h.St → (Nat → Nat) → List OB → List Blk → Prop
  | .base k, _, _, own, cli => own.Perm (cli.map fun b => (b, k))
  | .identity h, s, m, own, cli => Own T h s m own cli
  | .debugSize e h, s, m, own, cli =>
      ∃ inner : List Blk, Own T h s m own inner ∧ (∀ b ∈ inner, e ≤ b.2 ∧ m b.1 = b.2 - e) ∧
        cli.Perm (inner.map fun b => (b.1 + e, b.2 - e))
  | .withData d h, s, m, own, cli =>
      ∃ inner : List Blk, Own T h s m own inner ∧ (∀ b ∈ inner, d ≤ b.2) ∧
        cli.Perm (inner.map fun b => (b.1 + d, b.2 - d))
  | .split S a b, s, m, own, cli =>
      ∃ own1 own2 cli1 cli2, own.Perm (own1 ++ own2) ∧ cli.Perm (cli1 ++ cli2) ∧ Own T a s.1 m own1 cli1 ∧
        Own T b s.2 m own2 cli2 ∧ (∀ x ∈ cli1, x.2 ≤ S) ∧ (∀ x ∈ cli2, S < x.2)
  | .freeList tl S L h, s, m, own, cli =>
      ∃ chains : List (List Nat), chains.length = lists tl T ∧
        Own T h s.2 m own (chains.flatten.map (fun p => (p, S + W)) ++ cli.map fun b => (b.1, S + W)) ∧
        (∀ i chain, chains[i]? = some chain → Link m (s.1 i).data chain ∧ (s.1 i).count = chain.length ∧ chain.length ≤ L) ∧
        ∀ b ∈ cli, W ≤ b.2 ∧ b.2 ≤ S + W

/-- what a client may ask of the stack: the assertions of the free lists -/
def Expr.sizeOk : Expr → Nat → Prop
  | .base _, n => 0 < n
  | .identity h, n => h.sizeOk n
  | .debugSize e h, n => h.sizeOk (n + e)
  | .withData d h, n => h.sizeOk (n + d)
  | .split S a b, n => if n ≤ S then a.sizeOk n else b.sizeOk n
  | .freeList _ S _ h, n => W ≤ n ∧ n ≤ S + W ∧ h.sizeOk (S + W)

/-- the data that adaptors put before a block takes space -/
def Expr.Wf : Expr → Prop
  | .base _ => True
  | .identity h => h.Wf
  | .debugSize e h => 0 < e ∧ h.Wf
  | .withData d h => 0 < d ∧ h.Wf
  | .split _ a b => a.Wf ∧ b.Wf
  | .freeList _ _ _ h => h.Wf

def Disj (a b : Blk) : Prop := ∀ x, inB x a → ¬ inB x b

def ODisj (a b : OB) : Prop := Disj a.1 b.1

/-- outstanding blocks of the underlying heap -/
structure Good (w : World) : Prop where
  disj : w.live.Pairwise ODisj
  nz : ∀ b ∈ w.live, 0 < b.1.1

theorem Disj.symm {a b : Blk} (h : Disj a b) : Disj b a := fun x hb ha => h x ha hb

theorem pairwise_perm {l l' : List Blk} (h : l.Perm l') (hp : l.Pairwise Disj) : l'.Pairwise Disj :=
  (h.pairwise_iff Disj.symm).mp hp

theorem ODisj.symm {a b : OB} (h : ODisj a b) : ODisj b a := Disj.symm h

theorem pairwise_operm {l l' : List OB} (h : l.Perm l') (hp : l.Pairwise ODisj) : l'.Pairwise ODisj :=
  (h.pairwise_iff ODisj.symm).mp hp

theorem own_perm {T : Nat} {h : Expr} : ∀ {s : h.St} {m : Nat → Nat} {own own' : List OB} {cli cli' : List Blk},
    Own T h s m own cli → own.Perm own' → cli.Perm cli' → Own T h s m own' cli' := by
  induction h with
  | base k => intro s m own own' cli cli' h p q; exact (p.symm.trans h).trans (q.map _)
  | identity h ih => intro s m own own' cli cli' h p q; exact ih h p q
  | debugSize e h ih =>
    intro s m own own' cli cli' hh p q
    obtain ⟨inner, h1, h2, h3⟩ := hh
    exact ⟨inner, ih h1 p (List.Perm.refl _), h2, q.symm.trans h3⟩
  | withData d h ih =>
    intro s m own own' cli cli' hh p q
    obtain ⟨inner, h1, h2, h3⟩ := hh
    exact ⟨inner, ih h1 p (List.Perm.refl _), h2, q.symm.trans h3⟩
  | split S a b iha ihb =>
    intro s m own own' cli cli' hh p q
    obtain ⟨o1, o2, c1, c2, h1, h2, h3⟩ := hh
    exact ⟨o1, o2, c1, c2, p.symm.trans h1, q.symm.trans h2, h3⟩
  | freeList tl S L h ih =>
    intro s m own own' cli cli' hh p q
    obtain ⟨ch, h1, h2, h3, h4⟩ := hh
    exact ⟨ch, h1, ih h2 p (List.Perm.append_left _ (q.map _)), h3, fun b hb => h4 b (q.mem_iff.mpr hb)⟩

/-- client blocks are disjoint and lie in blocks of the underlying heap -/
theorem own_geo {T : Nat} {h : Expr} : ∀ {s : h.St} {m : Nat → Nat} {own : List OB} {cli : List Blk},
    Own T h s m own cli → own.Pairwise ODisj →
    cli.Pairwise Disj ∧ ∀ x, ∀ c ∈ cli, inB x c → ∃ o ∈ own, inB x o.1 := by
  induction h with
  | base k =>
    intro s m own cli h p
    have hp := pairwise_operm h p
    rw [List.pairwise_map] at hp
    exact ⟨hp, fun x c hc hx => ⟨(c, k), h.mem_iff.mpr (List.mem_map.mpr ⟨c, hc, rfl⟩), hx⟩⟩
  | identity h ih => intro s m own cli h p; exact ih h p
  | debugSize e h ih =>
    intro s m own cli hh p
    obtain ⟨inner, h1, h2, h3⟩ := hh
    obtain ⟨g1, g2⟩ := ih h1 p
    have hin : ∀ x b, b ∈ inner → inB x (b.1 + e, b.2 - e) → inB x b := by
      intro x b hb hx
      have := h2 b hb
      simp only [inB] at *; omega
    refine ⟨pairwise_perm h3.symm ?_, fun x c hc hx => ?_⟩
    · rw [List.pairwise_map]
      refine g1.imp_of_mem ?_
      intro a b ha hb hd x h1 h2
      exact hd x (hin x a ha h1) (hin x b hb h2)
    · obtain ⟨b, hb, rfl⟩ := List.mem_map.mp (h3.mem_iff.mp hc)
      exact g2 x b hb (hin x b hb hx)
  | withData d h ih =>
    intro s m own cli hh p
    obtain ⟨inner, h1, h2, h3⟩ := hh
    obtain ⟨g1, g2⟩ := ih h1 p
    have hin : ∀ x b, b ∈ inner → inB x (b.1 + d, b.2 - d) → inB x b := by
      intro x b hb hx
      have := h2 b hb
      simp only [inB] at *; omega
    refine ⟨pairwise_perm h3.symm ?_, fun x c hc hx => ?_⟩
    · rw [List.pairwise_map]
      refine g1.imp_of_mem ?_
      intro a b ha hb hd x h1 h2
      exact hd x (hin x a ha h1) (hin x b hb h2)
    · obtain ⟨b, hb, rfl⟩ := List.mem_map.mp (h3.mem_iff.mp hc)
      exact g2 x b hb (hin x b hb hx)
  | split S a b iha ihb =>
    intro s m own cli hh p
    obtain ⟨o1, o2, c1, c2, h1, h2, h3, h4, -, -⟩ := hh
    have hp := pairwise_operm h1 p
    rw [List.pairwise_append] at hp
    obtain ⟨p1, p2, p3⟩ := hp
    obtain ⟨a1, a2⟩ := iha h3 p1
    obtain ⟨b1, b2⟩ := ihb h4 p2
    refine ⟨pairwise_perm h2.symm ?_, fun x c hc hx => ?_⟩
    · rw [List.pairwise_append]
      refine ⟨a1, b1, fun u hu v hv x hxu hxv => ?_⟩
      obtain ⟨o, ho, hxo⟩ := a2 x u hu hxu
      obtain ⟨q, hq, hxq⟩ := b2 x v hv hxv
      exact p3 o ho q hq x hxo hxq
    · rcases List.mem_append.mp (h2.mem_iff.mp hc) with hc | hc
      · obtain ⟨o, ho, hxo⟩ := a2 x c hc hx
        exact ⟨o, h1.mem_iff.mpr (List.mem_append_left _ ho), hxo⟩
      · obtain ⟨o, ho, hxo⟩ := b2 x c hc hx
        exact ⟨o, h1.mem_iff.mpr (List.mem_append_right _ ho), hxo⟩
  | freeList tl S L h ih =>
    intro s m own cli hh p
    obtain ⟨ch, h1, h2, h3, h4⟩ := hh
    obtain ⟨g1, g2⟩ := ih h2 p
    rw [List.pairwise_append] at g1
    have hin : ∀ x b, b ∈ cli → inB x b → inB x (b.1, S + W) := by
      intro x b hb hx
      have := h4 b hb
      simp only [inB] at *; omega
    refine ⟨?_, fun x c hc hx => ?_⟩
    · have := List.pairwise_map.mp g1.2.1
      refine this.imp_of_mem ?_
      intro a b ha hb hd x h1 h2
      exact hd x (hin x a ha h1) (hin x b hb h2)
    · exact g2 x _ (List.mem_append_right _ (List.mem_map.mpr ⟨c, hc, rfl⟩)) (hin x c hc hx)

theorem link_frame {m m' : Nat → Nat} : ∀ {chain : List Nat} {p : Nat}, Link m p chain → (∀ q ∈ chain, m' q = m q) →
    Link m' p chain
  | [], p, h, _ => h
  | q :: rest, p, h, hm => by
    obtain ⟨rfl, h2, h3⟩ := h
    refine ⟨rfl, h2, ?_⟩
    rw [hm p (by simp)]
    exact link_frame h3 fun x hx => hm x (by simp [hx])

theorem own_pos {T : Nat} {h : Expr} : ∀ {s : h.St} {m : Nat → Nat} {own : List OB} {cli : List Blk},
    Own T h s m own cli → (∀ b ∈ own, 0 < b.1.1) → ∀ c ∈ cli, 0 < c.1 := by
  induction h with
  | base k => intro s m own cli h p c hc; exact p (c, k) (h.mem_iff.mpr (List.mem_map.mpr ⟨c, hc, rfl⟩))
  | identity h ih => intro s m own cli h p; exact ih h p
  | debugSize e h ih =>
    intro s m own cli hh p c hc
    obtain ⟨inner, h1, h2, h3⟩ := hh
    obtain ⟨b, hb, rfl⟩ := List.mem_map.mp (h3.mem_iff.mp hc)
    have := ih h1 p b hb
    simp only; omega
  | withData e h ih =>
    intro s m own cli hh p c hc
    obtain ⟨inner, h1, h2, h3⟩ := hh
    obtain ⟨b, hb, rfl⟩ := List.mem_map.mp (h3.mem_iff.mp hc)
    have := ih h1 p b hb
    simp only; omega
  | split S a b iha ihb =>
    intro s m own cli hh p c hc
    obtain ⟨o1, o2, c1, c2, h1, h2, h3, h4, -, -⟩ := hh
    rcases List.mem_append.mp (h2.mem_iff.mp hc) with hc | hc
    · exact iha h3 (fun b hb => p b (h1.mem_iff.mpr (List.mem_append_left _ hb))) c hc
    · exact ihb h4 (fun b hb => p b (h1.mem_iff.mpr (List.mem_append_right _ hb))) c hc
  | freeList tl S L h ih =>
    intro s m own cli hh p c hc
    obtain ⟨ch, h1, h2, h3, h4⟩ := hh
    exact ih h2 p (c.1, S + W) (List.mem_append_right _ (List.mem_map.mpr ⟨c, hc, rfl⟩))

theorem pw_ne {l : List Blk} (h : l.Pairwise Disj) {a b : Blk} (ha : a ∈ l) (hb : b ∈ l) (hne : a ≠ b) : Disj a b := by
  induction l with
  | nil => cases ha
  | cons c l ih =>
    rw [List.pairwise_cons] at h
    rcases List.mem_cons.mp ha with hac | ha <;> rcases List.mem_cons.mp hb with hbc | hb
    · exact absurd (hac.trans hbc.symm) hne
    · exact hac ▸ h.1 b hb
    · exact Disj.symm (hbc ▸ h.1 a ha)
    · exact ih h.2 ha hb

theorem not_both {a b : Blk} {x : Nat} (h : Disj a b) (ha : inB x a) (hb : inB x b) : False := h x ha hb

theorem mem_flatten_of {chains : List (List Nat)} {i : Nat} {chain : List Nat} {q : Nat} (h : chains[i]? = some chain)
    (hq : q ∈ chain) : q ∈ chains.flatten := List.mem_flatten.mpr ⟨chain, List.mem_of_getElem? h, hq⟩

/-- the heap's own data is in its blocks outside those of its clients -/
theorem own_frame {T : Nat} {h : Expr} (hwf : h.Wf) : ∀ {s : h.St} {m m' : Nat → Nat} {own : List OB} {cli : List Blk},
    Own T h s m own cli → own.Pairwise ODisj →
    (∀ x, (∃ o ∈ own, inB x o.1) → (∀ c ∈ cli, ¬ inB x c) → m' x = m x) → Own T h s m' own cli := by
  induction h with
  | base k => intro s m m' own cli h _ _; exact h
  | identity h ih => intro s m m' own cli h p f; exact ih hwf h p f
  | debugSize e h ih =>
    intro s m m' own cli hh p f
    obtain ⟨inner, h1, h2, h3⟩ := hh
    obtain ⟨he, hwf⟩ := hwf
    obtain ⟨g1, g2⟩ := own_geo h1 p
    refine ⟨inner, ih hwf h1 p fun x hx hc => f x hx fun c hcc hxc => ?_, fun b hb => ?_, h3⟩
    · obtain ⟨b, hb, rfl⟩ := List.mem_map.mp (h3.mem_iff.mp hcc)
      refine hc b hb ?_
      have := h2 b hb
      simp only [inB] at *; omega
    · have hb2 := h2 b hb
      refine ⟨hb2.1, ?_⟩
      have hbb : inB b.1 b := by simp only [inB]; omega
      rw [f b.1 (g2 _ b hb hbb) ?_, hb2.2]
      intro c hcc hxc
      obtain ⟨b', hb', rfl⟩ := List.mem_map.mp (h3.mem_iff.mp hcc)
      have hb2' := h2 b' hb'
      have hin : inB b.1 b' := by simp only [inB] at *; omega
      by_cases hbb' : b = b'
      · subst hbb'; simp only [inB] at hxc; omega
      · exact not_both (pw_ne g1 hb hb' hbb') hbb hin
  | withData d h ih =>
    intro s m m' own cli hh p f
    obtain ⟨inner, h1, h2, h3⟩ := hh
    obtain ⟨he, hwf⟩ := hwf
    refine ⟨inner, ih hwf h1 p fun x hx hc => f x hx fun c hcc hxc => ?_, h2, h3⟩
    obtain ⟨b, hb, rfl⟩ := List.mem_map.mp (h3.mem_iff.mp hcc)
    refine hc b hb ?_
    have := h2 b hb
    simp only [inB] at *; omega
  | split S a b iha ihb =>
    intro s m m' own cli hh p f
    obtain ⟨o1, o2, c1, c2, h1, h2, h3, h4, h5, h6⟩ := hh
    have hp := pairwise_operm h1 p
    rw [List.pairwise_append] at hp
    obtain ⟨p1, p2, p3⟩ := hp
    obtain ⟨a1, a2⟩ := own_geo h3 p1
    obtain ⟨b1, b2⟩ := own_geo h4 p2
    refine ⟨o1, o2, c1, c2, h1, h2, iha hwf.1 h3 p1 ?_, ihb hwf.2 h4 p2 ?_, h5, h6⟩
    · rintro x ⟨o, ho, hxo⟩ hc
      refine f x ⟨o, h1.mem_iff.mpr (List.mem_append_left _ ho), hxo⟩ fun c hcc hxc => ?_
      rcases List.mem_append.mp (h2.mem_iff.mp hcc) with hcc | hcc
      · exact hc c hcc hxc
      · obtain ⟨q, hq, hxq⟩ := b2 x c hcc hxc
        exact p3 o ho q hq x hxo hxq
    · rintro x ⟨o, ho, hxo⟩ hc
      refine f x ⟨o, h1.mem_iff.mpr (List.mem_append_right _ ho), hxo⟩ fun c hcc hxc => ?_
      rcases List.mem_append.mp (h2.mem_iff.mp hcc) with hcc | hcc
      · obtain ⟨q, hq, hxq⟩ := a2 x c hcc hxc
        exact p3 q hq o ho x hxq hxo
      · exact hc c hcc hxc
  | freeList tl S L h ih =>
    intro s m m' own cli hh p f
    obtain ⟨ch, h1, h2, h3, h4⟩ := hh
    obtain ⟨g1, g2⟩ := own_geo h2 p
    rw [List.pairwise_append] at g1
    have hin : ∀ x b, b ∈ cli → inB x b → inB x (b.1, S + W) := by
      intro x b hb hx
      have := h4 b hb
      simp only [inB] at *; omega
    refine ⟨ch, h1, ih hwf h2 p fun x hx hc => f x hx fun c hcc hxc => ?_, fun i chain hi => ?_, h4⟩
    · exact hc _ (List.mem_append_right _ (List.mem_map.mpr ⟨c, hcc, rfl⟩)) (hin x c hcc hxc)
    · obtain ⟨l1, l2, l3⟩ := h3 i chain hi
      refine ⟨link_frame l1 fun q hq => ?_, l2, l3⟩
      have hqm : (q, S + W) ∈ ch.flatten.map (fun p => (p, S + W)) :=
        List.mem_map.mpr ⟨q, mem_flatten_of hi hq, rfl⟩
      have hqin : inB q (q, S + W) := by simp only [inB, W]; omega
      refine f q (g2 q _ (List.mem_append_left _ hqm) hqin) fun c hcc hxc => ?_
      exact g1.2.2 _ hqm _ (List.mem_map.mpr ⟨c, hcc, rfl⟩) q hqin (hin q c hcc hxc)

/-! ### Operations -/

theorem put_ne {m : Nat → Nat} {x v y : Nat} (h : y ≠ x) : put m x v y = m y := if_neg h

theorem put_self {m : Nat → Nat} {x v : Nat} : put m x v x = v := if_pos rfl

/-- the blocks of the stack and of others -/
structure Split (w : World) (own rest : List OB) : Prop where
  good : Good w
  perm : w.live.Perm (own ++ rest)

theorem Split.own_disj {w : World} {own rest : List OB} (h : Split w own rest) : own.Pairwise ODisj := by
  have := pairwise_operm h.perm h.good.disj
  rw [List.pairwise_append] at this
  exact this.1

theorem Split.cross {w : World} {own rest : List OB} (h : Split w own rest) {a b : OB} (ha : a ∈ own) (hb : b ∈ rest) :
    ODisj a b := by
  have := pairwise_operm h.perm h.good.disj
  rw [List.pairwise_append] at this
  exact this.2.2 a ha b hb

theorem Split.nz {w : World} {own rest : List OB} (h : Split w own rest) : ∀ b ∈ own, 0 < b.1.1 :=
  fun b hb => h.good.nz b (h.perm.mem_iff.mpr (List.mem_append_left _ hb))

theorem Split.read {w : World} {own rest : List OB} (h : Split w own rest) {x : Nat} (hx : ∃ o ∈ own, inB x o.1) :
    w.read x = .ok (w.mem x) := by
  obtain ⟨o, ho, hx⟩ := hx
  exact if_pos ⟨o, h.perm.mem_iff.mpr (List.mem_append_left _ ho), hx⟩

theorem Split.write {w : World} {own rest : List OB} (h : Split w own rest) {x : Nat} (hx : ∃ o ∈ own, inB x o.1) (v : Nat) :
    w.write x v = .ok { w with mem := put w.mem x v } ∧ Split { w with mem := put w.mem x v } own rest := by
  obtain ⟨o, ho, hx⟩ := hx
  exact ⟨if_pos ⟨o, h.perm.mem_iff.mpr (List.mem_append_left _ ho), hx⟩, ⟨⟨h.good.disj, h.good.nz⟩, h.perm⟩⟩

/-- memory of others, and of other clients, is untouched -/
def Same (m m' : Nat → Nat) (rest : List OB) (cli : List Blk) : Prop :=
  ∀ x, ((∃ b ∈ rest, inB x b.1) ∨ ∃ b ∈ cli, inB x b) → m' x = m x

theorem R.no_ne_ub {α : Type} : (R.no : R α) ≠ .ub := fun h => by cases h
theorem R.ok_ne_ub {α : Type} {a : α} : R.ok a ≠ .ub := fun h => by cases h
theorem R.no_ne_ok {α : Type} {a : α} : (R.no : R α) ≠ .ok a := fun h => by cases h

/-- what `allocate` must do -/
def AllocOK (T : Nat) (h : Expr) (n : Nat) (cli : List Blk) (rest : List OB) (w : World) (r : R (Nat × h.St × World)) : Prop :=
  r ≠ .ub ∧ ∀ p s' w', r = .ok (p, s', w') → ∃ own', Own T h s' w'.mem own' ((p, n) :: cli) ∧ Split w' own' rest ∧
    Same w.mem w'.mem rest cli

/-- a header of `e` bytes before the block that the stack below gave -/
theorem header {T : Nat} {h : Expr} (hwf : h.Wf) {e n v q : Nat} (he : 0 < e) {s : h.St} {w : World} {m0 : Nat → Nat}
    {own rest : List OB} {inner : List Blk} (h1 : Own T h s w.mem own ((q, n + e) :: inner)) (hs : Split w own rest)
    (hsame : Same m0 w.mem rest inner) :
    w.write q v = .ok { w with mem := put w.mem q v } ∧ Split { w with mem := put w.mem q v } own rest ∧
    Own T h s (put w.mem q v) own ((q, n + e) :: inner) ∧ Same m0 (put w.mem q v) rest inner := by
  obtain ⟨g1, g2⟩ := own_geo h1 hs.own_disj
  have hq : inB q (q, n + e) := by simp only [inB]; omega
  have hqo := g2 q _ (List.mem_cons_self) hq
  refine ⟨(hs.write hqo v).1, (hs.write hqo v).2, own_frame hwf h1 hs.own_disj ?_, ?_⟩
  · intro x _ hc
    refine put_ne ?_
    rintro rfl
    exact hc _ (List.mem_cons_self) hq
  · intro x hx
    rw [put_ne, hsame x hx]
    rintro rfl
    rcases hx with ⟨b, hb, hx⟩ | ⟨b, hb, hx⟩
    · obtain ⟨o, ho, hxo⟩ := hqo
      exact hs.cross ho hb x hxo hx
    · rw [List.pairwise_cons] at g1
      exact g1.1 b hb x hq hx

theorem flatten_set : ∀ {chains : List (List Nat)} {i : Nat} {p : Nat} {rest : List Nat},
    chains[i]? = some (p :: rest) → chains.flatten.Perm (p :: (chains.set i rest).flatten)
  | [], i, p, rest, h => by simp at h
  | c :: cs, 0, p, rest, h => by simp at h; subst h; simp
  | c :: cs, i + 1, p, rest, h => by
    have := flatten_set (chains := cs) (i := i) (p := p) (rest := rest) (by simpa using h)
    simp only [List.set_cons_succ, List.flatten_cons]
    exact (List.Perm.append_left c this).trans List.perm_middle

theorem flatten_push : ∀ {chains : List (List Nat)} {i : Nat} {p : Nat} {rest : List Nat},
    chains[i]? = some rest → (chains.set i (p :: rest)).flatten.Perm (p :: chains.flatten)
  | [], i, p, rest, h => by simp at h
  | c :: cs, 0, p, rest, h => by simp at h; subst h; simp
  | c :: cs, i + 1, p, rest, h => by
    have := flatten_push (chains := cs) (i := i) (p := p) (rest := rest) (by simpa using h)
    simp only [List.set_cons_succ, List.flatten_cons]
    exact (List.Perm.append_left c this).trans List.perm_middle

theorem slot_lt {T t : Nat} (tl : Bool) (ht : t < T) : slot tl t < lists tl T := by
  cases tl <;> simp [slot, lists, ht]

theorem same_mono {m m' : Nat → Nat} {rest rest' : List OB} {cli cli' : List Blk} (h : Same m m' rest' cli')
    (hr : ∀ b ∈ rest, b ∈ rest')
    (hc : ∀ b ∈ cli, ∀ x, inB x b → (∃ b ∈ rest', inB x b.1) ∨ ∃ b ∈ cli', inB x b) : Same m m' rest cli := by
  rintro x (⟨b, hb, hx⟩ | ⟨b, hb, hx⟩)
  · exact h x (.inl ⟨b, hr b hb, hx⟩)
  · exact h x (hc b hb x hx)

theorem alloc_ok {T t c : Nat} (ht : t < T) {h : Expr} (hwf : h.Wf) : ∀ {n : Nat} {s : h.St} {w : World} {own : List OB} {cli : List Blk} {rest : List OB},
    Own T h s w.mem own cli → Split w own rest → h.sizeOk n → AllocOK T h n cli rest w (alloc t c h n s w) := by
  induction h with
  | base k =>
    intro n s w own cli rest ho hs hn
    simp only [alloc]
    split
    · rename_i hc
      refine ⟨R.ok_ne_ub, ?_⟩
      rintro p s' w' ⟨⟩
      refine ⟨((c, n), k) :: own, List.Perm.cons _ ho, ⟨⟨?_, ?_⟩, List.Perm.cons _ hs.perm⟩, fun _ _ => rfl⟩
      · rw [List.pairwise_cons]
        refine ⟨fun b hb x hx hxb => ?_, hs.good.disj⟩
        have := hc.2 b hb
        simp only [inB] at *; omega
      · intro b hb
        rcases List.mem_cons.mp hb with rfl | hb
        · exact hc.1
        · exact hs.good.nz b hb
    · exact ⟨R.no_ne_ub, fun _ _ _ h => (R.no_ne_ok h).elim⟩
  | identity h ih => intro n s w own cli rest ho hs hn; exact ih hwf ho hs hn
  | debugSize e h ih =>
    intro n s w own cli rest ho hs hn
    obtain ⟨inner, h1, h2, h3⟩ := ho
    obtain ⟨hu, hok⟩ := ih hwf.2 h1 hs hn
    simp only [alloc]
    cases hr : alloc t c h (n + e) s w with
    | ub => exact absurd hr hu
    | no => exact ⟨R.no_ne_ub, fun _ _ _ h => (R.no_ne_ok h).elim⟩
    | ok r =>
      obtain ⟨q, s', w'⟩ := r
      obtain ⟨own', o1, o2, o3⟩ := hok q s' w' hr
      obtain ⟨w1, w2, w3, w4⟩ := header hwf.2 (v := n) hwf.1 o1 o2 o3
      simp only [R.bind, w1]
      refine ⟨R.ok_ne_ub, ?_⟩
      rintro p s'' w'' ⟨⟩
      refine ⟨own', ⟨(q, n + e) :: inner, w3, ?_, ?_⟩, w2, ?_⟩
      · intro b hb
        rcases List.mem_cons.mp hb with rfl | hb
        · exact ⟨by omega, by simp [put_self]⟩
        · have hb2 := h2 b hb
          refine ⟨hb2.1, ?_⟩
          exact (w4 b.1 (.inr ⟨b, hb, by simp only [inB]; have := hwf.1; omega⟩)).trans hb2.2
      · simp only [List.map_cons, Nat.add_sub_cancel]
        exact List.Perm.cons _ h3
      · refine same_mono w4 ?_ fun b hb x hx => ?_
        · exact fun b hb => by simp [hb]
        · obtain ⟨b', hb', rfl⟩ := List.mem_map.mp (h3.mem_iff.mp hb)
          refine .inr ⟨b', hb', ?_⟩
          have := h2 b' hb'
          simp only [inB] at *; omega
  | withData e h ih =>
    intro n s w own cli rest ho hs hn
    obtain ⟨inner, h1, h2, h3⟩ := ho
    obtain ⟨hu, hok⟩ := ih hwf.2 h1 hs hn
    simp only [alloc]
    cases hr : alloc t c h (n + e) s w with
    | ub => exact absurd hr hu
    | no => exact ⟨R.no_ne_ub, fun _ _ _ h => (R.no_ne_ok h).elim⟩
    | ok r =>
      obtain ⟨q, s', w'⟩ := r
      obtain ⟨own', o1, o2, o3⟩ := hok q s' w' hr
      obtain ⟨w1, w2, w3, w4⟩ := header hwf.2 (v := 0) hwf.1 o1 o2 o3
      simp only [R.bind, w1]
      refine ⟨R.ok_ne_ub, ?_⟩
      rintro p s'' w'' ⟨⟩
      refine ⟨own', ⟨(q, n + e) :: inner, w3, ?_, ?_⟩, w2, ?_⟩
      · intro b hb
        rcases List.mem_cons.mp hb with rfl | hb
        · simp
        · exact h2 b hb
      · simp only [List.map_cons, Nat.add_sub_cancel]
        exact List.Perm.cons _ h3
      · refine same_mono w4 ?_ fun b hb x hx => ?_
        · exact fun b hb => by simp [hb]
        · obtain ⟨b', hb', rfl⟩ := List.mem_map.mp (h3.mem_iff.mp hb)
          refine .inr ⟨b', hb', ?_⟩
          have := h2 b' hb'
          simp only [inB] at *; omega
  | split S a b iha ihb =>
    intro n s w own cli rest ho hs hn
    obtain ⟨o1, o2, c1, c2, h1, h2, h3, h4, h5, h6⟩ := ho
    obtain ⟨b1, b2⟩ := own_geo h4 (by
      have := pairwise_operm h1 hs.own_disj; rw [List.pairwise_append] at this; exact this.2.1)
    obtain ⟨a1, a2⟩ := own_geo h3 (by
      have := pairwise_operm h1 hs.own_disj; rw [List.pairwise_append] at this; exact this.1)
    simp only [alloc]
    split
    · rename_i hnS
      simp only [Expr.sizeOk, if_pos hnS] at hn
      have hs1 : Split w o1 (o2 ++ rest) := ⟨hs.good, by
        refine hs.perm.trans ?_
        rw [← List.append_assoc]; exact List.Perm.append_right _ h1⟩
      obtain ⟨hu, hok⟩ := iha hwf.1 h3 hs1 hn
      cases hr : alloc t c a n s.1 w with
      | ub => exact absurd hr hu
      | no => exact ⟨R.no_ne_ub, fun _ _ _ h => (R.no_ne_ok h).elim⟩
      | ok r =>
        obtain ⟨q, s', w'⟩ := r
        obtain ⟨own', x1, x2, x3⟩ := hok q s' w' hr
        refine ⟨R.ok_ne_ub, ?_⟩
        rintro p s'' w'' ⟨⟩
        refine ⟨own' ++ o2, ⟨own', o2, (q, n) :: c1, c2, List.Perm.refl _, List.Perm.cons _ h2, x1, ?_, ?_, h6⟩, ?_, ?_⟩
        · refine own_frame hwf.2 h4 ?_ ?_
          · have := pairwise_operm h1 hs.own_disj; rw [List.pairwise_append] at this; exact this.2.1
          · rintro x ⟨o, ho, hx⟩ _
            exact x3 x (.inl ⟨o, by simp [ho], hx⟩)
        · intro x hx
          rcases List.mem_cons.mp hx with rfl | hx
          · exact hnS
          · exact h5 x hx
        · exact ⟨x2.good, by rw [List.append_assoc]; exact x2.perm⟩
        · refine same_mono x3 ?_ fun b hb x hx => ?_
          · exact fun b hb => by simp [hb]
          · rcases List.mem_append.mp (h2.mem_iff.mp hb) with hb | hb
            · exact .inr ⟨b, by simp [hb], hx⟩
            · obtain ⟨o, ho, hxo⟩ := b2 x b hb hx
              exact .inl ⟨o, by simp [ho], hxo⟩
    · rename_i hnS
      simp only [Expr.sizeOk, if_neg hnS] at hn
      have hs1 : Split w o2 (o1 ++ rest) := ⟨hs.good, by
        refine hs.perm.trans ((List.Perm.append_right _ (h1.trans List.perm_append_comm)).trans ?_)
        rw [List.append_assoc]⟩
      obtain ⟨hu, hok⟩ := ihb hwf.2 h4 hs1 hn
      cases hr : alloc t c b n s.2 w with
      | ub => exact absurd hr hu
      | no => exact ⟨R.no_ne_ub, fun _ _ _ h => (R.no_ne_ok h).elim⟩
      | ok r =>
        obtain ⟨q, s', w'⟩ := r
        obtain ⟨own', x1, x2, x3⟩ := hok q s' w' hr
        refine ⟨R.ok_ne_ub, ?_⟩
        rintro p s'' w'' ⟨⟩
        refine ⟨o1 ++ own', ⟨o1, own', c1, (q, n) :: c2, List.Perm.refl _,
          (List.Perm.cons _ h2).trans List.perm_middle.symm, ?_, x1, h5, ?_⟩, ?_, ?_⟩
        · refine own_frame hwf.1 h3 ?_ ?_
          · have := pairwise_operm h1 hs.own_disj; rw [List.pairwise_append] at this; exact this.1
          · rintro x ⟨o, ho, hx⟩ _
            exact x3 x (.inl ⟨o, by simp [ho], hx⟩)
        · intro x hx
          rcases List.mem_cons.mp hx with rfl | hx
          · simp only; omega
          · exact h6 x hx
        · refine ⟨x2.good, x2.perm.trans ?_⟩
          rw [← List.append_assoc]
          exact List.Perm.append_right _ List.perm_append_comm
        · refine same_mono x3 ?_ fun b hb x hx => ?_
          · exact fun b hb => by simp [hb]
          · rcases List.mem_append.mp (h2.mem_iff.mp hb) with hb | hb
            · obtain ⟨o, ho, hxo⟩ := a2 x b hb hx
              exact .inl ⟨o, by simp [ho], hxo⟩
            · exact .inr ⟨b, by simp [hb], hx⟩
  | freeList tl S L h ih =>
    intro n s w own cli rest ho hs hn
    obtain ⟨ch, h1, h2, h3, h4⟩ := ho
    obtain ⟨g1, g2⟩ := own_geo h2 hs.own_disj
    obtain ⟨n1, n2, n3⟩ := hn
    have hin : ∀ x b, b ∈ cli → inB x b → inB x (b.1, S + W) := by
      intro x b hb hx
      have := h4 b hb
      simp only [inB] at *; omega
    have hqin : ∀ q : Nat, inB q (q, S + W) := by intro q; simp only [inB, W]; omega
    simp only [alloc]
    rw [if_pos (⟨by omega, n1⟩ : n ≤ W + S ∧ W ≤ n)]
    have hslot := slot_lt tl ht
    split
    · rename_i hd
      obtain ⟨hu, hok⟩ := ih hwf h2 hs n3
      cases hr : alloc t c h (S + W) s.2 w with
      | ub => exact absurd hr hu
      | no => exact ⟨R.no_ne_ub, fun _ _ _ h => (R.no_ne_ok h).elim⟩
      | ok r =>
        obtain ⟨q, s', w'⟩ := r
        obtain ⟨own', x1, x2, x3⟩ := hok q s' w' hr
        refine ⟨R.ok_ne_ub, ?_⟩
        rintro p s'' w'' ⟨⟩
        refine ⟨own', ⟨ch, h1, own_perm x1 (List.Perm.refl _) ?_, ?_, ?_⟩, x2, ?_⟩
        · exact List.perm_middle.symm
        · intro i chain hi
          obtain ⟨l1, l2, l3⟩ := h3 i chain hi
          refine ⟨link_frame l1 fun q' hq' => x3 q' (.inr ⟨(q', S + W), ?_, hqin q'⟩), l2, l3⟩
          refine List.mem_append_left _ ?_
          exact List.mem_map.mpr ⟨q', mem_flatten_of hi hq', rfl⟩
        · intro b hb
          rcases List.mem_cons.mp hb with rfl | hb
          · exact ⟨n1, n2⟩
          · exact h4 b hb
        · refine same_mono x3 ?_ fun b hb x hx => ?_
          · exact fun b hb => by simp [hb]
          · exact .inr ⟨(b.1, S + W), List.mem_append_right _ (List.mem_map.mpr ⟨b, hb, rfl⟩), hin x b hb hx⟩
    · rename_i hd
      obtain ⟨chain, hi⟩ : ∃ chain, ch[slot tl t]? = some chain := ⟨_, List.getElem?_eq_getElem (by omega)⟩
      obtain ⟨l1, l2, l3⟩ := h3 _ chain hi
      cases chain with
      | nil => exact absurd l1 hd
      | cons p tail =>
        obtain ⟨e1, e2, e3⟩ := l1
        have hpo := g2 p (p, S + W) (List.mem_append_left _ (List.mem_map.mpr ⟨p, mem_flatten_of hi (by simp), rfl⟩)) (hqin p)
        rw [e1] at e3 ⊢
        rw [hs.read hpo]
        refine ⟨R.ok_ne_ub, ?_⟩
        rintro p' s'' w'' ⟨⟩
        refine ⟨own, ⟨ch.set (slot tl t) tail, by simpa using h1, own_perm h2 (List.Perm.refl _) ?_, ?_, ?_⟩, hs, fun _ _ => rfl⟩
        · simp only [List.map_cons]
          refine List.Perm.trans ?_ List.perm_middle.symm
          rw [← List.cons_append]
          exact List.Perm.append_right _ ((flatten_set hi).map _)
        · intro i chain' hi'
          by_cases hii : i = slot tl t
          · subst hii
            rw [List.getElem?_set_self (by omega)] at hi'
            cases hi'
            simp only [setH, if_true]
            simp only [List.length_cons] at l2 l3
            exact ⟨e3, by omega, by omega⟩
          · rw [List.getElem?_set_ne (Ne.symm hii)] at hi'
            simp only [setH, if_neg hii]
            exact h3 i chain' hi'
        · intro b hb
          rcases List.mem_cons.mp hb with rfl | hb
          · exact ⟨n1, n2⟩
          · exact h4 b hb

/-- what `deallocate` must do -/
def DeallocOK (T : Nat) (h : Expr) (cli : List Blk) (rest : List OB) (w : World) (r : R (h.St × World)) : Prop :=
  ∃ s' w' own', r = .ok (s', w') ∧ Own T h s' w'.mem own' cli ∧ Split w' own' rest ∧ Same w.mem w'.mem rest cli

theorem dealloc_debug {t e n q : Nat} {h : Expr} {s : (Expr.debugSize e h).St} {w : World} (hr : w.read q = .ok n) :
    dealloc t (.debugSize e h) n (q + e) s w = dealloc t h (n + e) q s w := by
  show (if q + e < e then R.ub
    else (w.read (q + e - e)).bind fun k => if k = n then dealloc t h (n + e) (q + e - e) s w else .ub) = _
  rw [if_neg (by omega), Nat.add_sub_cancel, hr, R.bind, if_pos rfl]

theorem dealloc_data {t d n q : Nat} {h : Expr} {s : (Expr.withData d h).St} {w : World} :
    dealloc t (.withData d h) n (q + d) s w = dealloc t h (n + d) q s w := by
  show (if q + d < d then R.ub else dealloc t h (n + d) (q + d - d) s w) = _
  rw [if_neg (by omega), Nat.add_sub_cancel]

theorem dealloc_ok {T t : Nat} (ht : t < T) {h : Expr} (hwf : h.Wf) : ∀ {n p : Nat} {s : h.St} {w : World} {own : List OB} {cli : List Blk} {rest : List OB},
    Own T h s w.mem own ((p, n) :: cli) → Split w own rest → DeallocOK T h cli rest w (dealloc t h n p s w) := by
  induction h with
  | base k =>
    intro n p s w own cli rest ho hs
    have hmem : ((p, n), k) ∈ w.live := hs.perm.mem_iff.mpr (List.mem_append_left _ (ho.mem_iff.mpr (by simp)))
    simp only [dealloc, if_pos hmem]
    have hperm : (w.live.erase ((p, n), k)).Perm (cli.map (fun b => (b, k)) ++ rest) := by
      have h1 : w.live.Perm (((p, n), k) :: (cli.map (fun b => (b, k)) ++ rest)) := hs.perm.trans (List.Perm.append_right _ ho)
      have := h1.erase ((p, n), k)
      rwa [List.erase_cons_head] at this
    refine ⟨_, _, cli.map (fun b => (b, k)), rfl, List.Perm.refl _, ⟨⟨?_, ?_⟩, hperm⟩, fun _ _ => rfl⟩
    · exact hs.good.disj.sublist (List.erase_sublist)
    · exact fun b hb => hs.good.nz b (List.mem_of_mem_erase hb)
  | identity h ih => intro n p s w own cli rest ho hs; exact ih hwf ho hs
  | debugSize e h ih =>
    intro n p s w own cli rest ho hs
    obtain ⟨inner, h1, h2, h3⟩ := ho
    obtain ⟨b, hb, heq⟩ := List.mem_map.mp (h3.mem_iff.mp (List.mem_cons_self))
    have hb2 := h2 b hb
    obtain ⟨q, k⟩ := b
    simp only [Prod.mk.injEq] at heq hb2
    obtain ⟨rfl, rfl⟩ := heq
    obtain ⟨i1, i2, hsplit⟩ := List.append_of_mem hb
    have hperm : inner.Perm ((q, k) :: (i1 ++ i2)) := by rw [hsplit]; exact List.perm_middle
    have h1' := own_perm h1 (List.Perm.refl _) hperm
    obtain ⟨g1, g2⟩ := own_geo h1 hs.own_disj
    have hread := hs.read (g2 q (q, k) hb (by simp only [inB]; have := hwf.1; omega))
    have hke : k - e + e = k := by omega
    rw [hb2.2] at hread
    rw [dealloc_debug hread, hke]
    obtain ⟨s', w', own', r1, r2, r3, r4⟩ := ih hwf.2 h1' hs
    have hcli : cli.Perm ((i1 ++ i2).map fun b => (b.1 + e, b.2 - e)) := by
      have := h3.trans (hperm.map _)
      simp only [List.map_cons] at this
      exact this.cons_inv
    refine ⟨s', w', own', r1, ⟨i1 ++ i2, r2, fun b hb' => ?_, hcli⟩, r3, same_mono r4 (fun b hb => hb) fun b hb' x hx => ?_⟩
    · have hbi : b ∈ inner := hperm.mem_iff.mpr (List.mem_cons_of_mem _ hb')
      have hb2 := h2 b hbi
      refine ⟨hb2.1, ?_⟩
      rw [r4 b.1 (.inr ⟨b, hb', by simp only [inB]; have := hwf.1; omega⟩)]
      exact hb2.2
    · obtain ⟨b', hb'', rfl⟩ := List.mem_map.mp (hcli.mem_iff.mp hb')
      refine .inr ⟨b', hb'', ?_⟩
      have := h2 b' (hperm.mem_iff.mpr (List.mem_cons_of_mem _ hb''))
      simp only [inB] at *; omega
  | withData e h ih =>
    intro n p s w own cli rest ho hs
    obtain ⟨inner, h1, h2, h3⟩ := ho
    obtain ⟨b, hb, heq⟩ := List.mem_map.mp (h3.mem_iff.mp (List.mem_cons_self))
    have hb2 := h2 b hb
    obtain ⟨q, k⟩ := b
    simp only [Prod.mk.injEq] at heq hb2
    obtain ⟨rfl, rfl⟩ := heq
    obtain ⟨i1, i2, hsplit⟩ := List.append_of_mem hb
    have hperm : inner.Perm ((q, k) :: (i1 ++ i2)) := by rw [hsplit]; exact List.perm_middle
    have h1' := own_perm h1 (List.Perm.refl _) hperm
    have hke : k - e + e = k := by omega
    rw [dealloc_data, hke]
    obtain ⟨s', w', own', r1, r2, r3, r4⟩ := ih hwf.2 h1' hs
    have hcli : cli.Perm ((i1 ++ i2).map fun b => (b.1 + e, b.2 - e)) := by
      have := h3.trans (hperm.map _)
      simp only [List.map_cons] at this
      exact this.cons_inv
    refine ⟨s', w', own', r1, ⟨i1 ++ i2, r2, fun b hb' => ?_, hcli⟩, r3, same_mono r4 (fun b hb => hb) fun b hb' x hx => ?_⟩
    · exact h2 b (hperm.mem_iff.mpr (List.mem_cons_of_mem _ hb'))
    · obtain ⟨b', hb'', rfl⟩ := List.mem_map.mp (hcli.mem_iff.mp hb')
      refine .inr ⟨b', hb'', ?_⟩
      have := h2 b' (hperm.mem_iff.mpr (List.mem_cons_of_mem _ hb''))
      simp only [inB] at *; omega
  | split S a b iha ihb =>
    intro n p s w own cli rest ho hs
    obtain ⟨o1, o2, c1, c2, h1, h2, h3, h4, h5, h6⟩ := ho
    have hpp := pairwise_operm h1 hs.own_disj
    rw [List.pairwise_append] at hpp
    obtain ⟨b1, b2⟩ := own_geo h4 hpp.2.1
    obtain ⟨a1, a2⟩ := own_geo h3 hpp.1
    have hmem := List.mem_append.mp (h2.mem_iff.mp (List.mem_cons_self))
    simp only [dealloc]
    split
    · rename_i hnS
      have hm1 : (p, n) ∈ c1 := by
        rcases hmem with hm | hm
        · exact hm
        · have := h6 _ hm; simp only at this; omega
      obtain ⟨i1, i2, hsplit⟩ := List.append_of_mem hm1
      have hperm : c1.Perm ((p, n) :: (i1 ++ i2)) := by rw [hsplit]; exact List.perm_middle
      have hcli : cli.Perm ((i1 ++ i2) ++ c2) := (h2.trans (List.Perm.append_right _ hperm)).cons_inv
      have hs1 : Split w o1 (o2 ++ rest) := ⟨hs.good, by
        refine hs.perm.trans ?_
        rw [← List.append_assoc]; exact List.Perm.append_right _ h1⟩
      obtain ⟨s', w', own', r1, r2, r3, r4⟩ := iha hwf.1 (own_perm h3 (List.Perm.refl _) hperm) hs1
      rw [r1]
      refine ⟨_, _, own' ++ o2, rfl, ⟨own', o2, i1 ++ i2, c2, List.Perm.refl _, hcli, r2, ?_, ?_, h6⟩, ?_, ?_⟩
      · refine own_frame hwf.2 h4 hpp.2.1 ?_
        rintro x ⟨o, ho, hx⟩ _
        exact r4 x (.inl ⟨o, by simp [ho], hx⟩)
      · exact fun x hx => h5 x (hperm.mem_iff.mpr (List.mem_cons_of_mem _ hx))
      · exact ⟨r3.good, by rw [List.append_assoc]; exact r3.perm⟩
      · refine same_mono r4 ?_ fun b hb x hx => ?_
        · exact fun b hb => by simp [hb]
        · rcases List.mem_append.mp (hcli.mem_iff.mp hb) with hb | hb
          · exact .inr ⟨b, hb, hx⟩
          · obtain ⟨o, ho, hxo⟩ := b2 x b hb hx
            exact .inl ⟨o, by simp [ho], hxo⟩
    · rename_i hnS
      have hm1 : (p, n) ∈ c2 := by
        rcases hmem with hm | hm
        · have := h5 _ hm; simp only at this; omega
        · exact hm
      obtain ⟨i1, i2, hsplit⟩ := List.append_of_mem hm1
      have hperm : c2.Perm ((p, n) :: (i1 ++ i2)) := by rw [hsplit]; exact List.perm_middle
      have hcli : cli.Perm (c1 ++ (i1 ++ i2)) :=
        ((h2.trans (List.Perm.append_left _ hperm)).trans List.perm_middle).cons_inv
      have hs1 : Split w o2 (o1 ++ rest) := ⟨hs.good, by
        refine hs.perm.trans ((List.Perm.append_right _ (h1.trans List.perm_append_comm)).trans ?_)
        rw [List.append_assoc]⟩
      obtain ⟨s', w', own', r1, r2, r3, r4⟩ := ihb hwf.2 (own_perm h4 (List.Perm.refl _) hperm) hs1
      rw [r1]
      refine ⟨_, _, o1 ++ own', rfl, ⟨o1, own', c1, i1 ++ i2, List.Perm.refl _, hcli, ?_, r2, h5, ?_⟩, ?_, ?_⟩
      · refine own_frame hwf.1 h3 hpp.1 ?_
        rintro x ⟨o, ho, hx⟩ _
        exact r4 x (.inl ⟨o, by simp [ho], hx⟩)
      · exact fun x hx => h6 x (hperm.mem_iff.mpr (List.mem_cons_of_mem _ hx))
      · refine ⟨r3.good, r3.perm.trans ?_⟩
        rw [← List.append_assoc]
        exact List.Perm.append_right _ List.perm_append_comm
      · refine same_mono r4 ?_ fun b hb x hx => ?_
        · exact fun b hb => by simp [hb]
        · rcases List.mem_append.mp (hcli.mem_iff.mp hb) with hb | hb
          · obtain ⟨o, ho, hxo⟩ := a2 x b hb hx
            exact .inl ⟨o, by simp [ho], hxo⟩
          · exact .inr ⟨b, hb, hx⟩
  | freeList tl S L h ih =>
    intro n p s w own cli rest ho hs
    have hpos := own_pos ho hs.nz (p, n) (List.mem_cons_self)
    obtain ⟨ch, h1, h2, h3, h4⟩ := ho
    obtain ⟨g1, g2⟩ := own_geo h2 hs.own_disj
    have hn := h4 (p, n) (List.mem_cons_self)
    have hin : ∀ x b, b ∈ cli → inB x b → inB x (b.1, S + W) := by
      intro x b hb hx
      have := h4 b (List.mem_cons_of_mem _ hb)
      simp only [inB] at *; omega
    have hqin : ∀ q : Nat, inB q (q, S + W) := by intro q; simp only [inB, W]; omega
    simp only at hn hpos
    simp only [dealloc]
    rw [if_pos (⟨by omega, by omega⟩ : n ≤ W + S ∧ W ≤ n)]
    have hslot := slot_lt tl ht
    simp only [List.map_cons] at h2 g1 g2
    split
    · rename_i hd
      obtain ⟨s', w', own', r1, r2, r3, r4⟩ := ih hwf (own_perm h2 (List.Perm.refl _) List.perm_middle) hs
      rw [r1]
      refine ⟨_, _, own', rfl, ⟨ch, h1, r2, ?_, fun b hb => h4 b (List.mem_cons_of_mem _ hb)⟩, r3, ?_⟩
      · intro i chain hi
        obtain ⟨l1, l2, l3⟩ := h3 i chain hi
        refine ⟨link_frame l1 fun q' hq' => r4 q' (.inr ⟨(q', S + W), ?_, hqin q'⟩), l2, l3⟩
        refine List.mem_append_left _ ?_
        exact List.mem_map.mpr ⟨q', mem_flatten_of hi hq', rfl⟩
      · refine same_mono r4 ?_ fun b hb x hx => ?_
        · exact fun b hb => by simp [hb]
        · exact .inr ⟨(b.1, S + W), List.mem_append_right _ (List.mem_map.mpr ⟨b, hb, rfl⟩), hin x b hb hx⟩
    · rename_i hd
      obtain ⟨chain, hi⟩ : ∃ chain, ch[slot tl t]? = some chain := ⟨_, List.getElem?_eq_getElem (by omega)⟩
      obtain ⟨l1, l2, l3⟩ := h3 _ chain hi
      have hpo := g2 p (p, S + W) (by simp) (hqin p)
      obtain ⟨w1, w2⟩ := hs.write hpo (s.1 (slot tl t)).data
      rw [w1]
      have hg := (pairwise_perm List.perm_middle g1)
      rw [List.pairwise_cons] at hg
      have hne : ∀ b ∈ ch.flatten.map (fun p => (p, S + W)) ++ cli.map (fun b => (b.1, S + W)), ∀ x, inB x b → x ≠ p := by
        rintro b hb x hx rfl
        exact hg.1 b hb x (hqin x) hx
      have hneq : ∀ q ∈ ch.flatten, q ≠ p := fun q hq =>
        hne (q, S + W) (List.mem_append_left _ (List.mem_map.mpr ⟨q, hq, rfl⟩)) q (hqin q)
      refine ⟨_, _, own, rfl, ⟨ch.set (slot tl t) (p :: chain), by simpa using h1, ?_, ?_,
        fun b hb => h4 b (List.mem_cons_of_mem _ hb)⟩, w2, ?_⟩
      · have hfr := own_frame (h := h) hwf (m' := put w.mem p (s.1 (slot tl t)).data) h2 hs.own_disj (by
          intro x _ hc
          refine put_ne ?_
          rintro rfl
          exact hc (x, S + W) (by simp) (hqin x))
        refine own_perm hfr (List.Perm.refl _) (List.perm_middle.trans ?_)
        rw [← List.cons_append]
        exact List.Perm.append_right _ ((flatten_push hi).map (fun p => (p, S + W))).symm
      · intro i chain' hi'
        by_cases hii : i = slot tl t
        · subst hii
          rw [List.getElem?_set_self (by omega)] at hi'
          cases hi'
          simp only [setH, if_true]
          refine ⟨⟨rfl, by omega, ?_⟩, by simp [l2], by simp only [List.length_cons]; omega⟩
          rw [put_self]
          exact link_frame l1 fun q hq => put_ne (hneq q (mem_flatten_of hi hq))
        · rw [List.getElem?_set_ne (Ne.symm hii)] at hi'
          simp only [setH, if_neg hii]
          obtain ⟨l1, l2, l3⟩ := h3 i chain' hi'
          exact ⟨link_frame l1 fun q hq => put_ne (hneq q (mem_flatten_of hi' hq)), l2, l3⟩
      · intro x hx
        refine put_ne ?_
        rcases hx with ⟨b, hb, hx⟩ | ⟨b, hb, hx⟩
        · rintro rfl
          obtain ⟨o, ho, hxo⟩ := hpo
          exact hs.cross ho hb x hxo hx
        · exact hne (b.1, S + W) (List.mem_append_right _ (List.mem_map.mpr ⟨b, hb, rfl⟩)) x (hin x b hb hx)

/-! ### End of a thread -/

theorem clearLoop_ok {T t S : Nat} (ht : t < T) {h : Expr} (hwf : h.Wf) {rest : List OB} {others : List Blk} :
    ∀ (chain : List Nat) {hd : Head} {s : h.St} {w : World} {own : List OB},
    Own T h s w.mem own (chain.map (fun p => (p, S + W)) ++ others) → Split w own rest → Link w.mem hd.data chain →
    hd.count = chain.length →
    ∃ s' w' own', clearLoop t S h chain.length hd s w = .ok (⟨0, 0⟩, s', w') ∧ Own T h s' w'.mem own' others ∧
      Split w' own' rest ∧ Same w.mem w'.mem rest others
  | [], hd, s, w, own, ho, hs, hl, hc => by
    have hd0 : hd = ⟨0, 0⟩ := by
      cases hd; simp only [Link] at hl; simp only [List.length_nil] at hc; subst hl; subst hc; rfl
    subst hd0
    exact ⟨s, w, own, by simp [clearLoop], ho, hs, fun _ _ => rfl⟩
  | p :: chain, hd, s, w, own, ho, hs, hl, hc => by
    obtain ⟨e1, e2, e3⟩ := hl
    obtain ⟨g1, g2⟩ := own_geo ho hs.own_disj
    have hqin : ∀ q : Nat, inB q (q, S + W) := by intro q; simp only [inB, W]; omega
    have hread := hs.read (g2 p (p, S + W) (by simp) (hqin p))
    obtain ⟨s1, w1, own1, r1, r2, r3, r4⟩ := dealloc_ok (t := t) ht hwf (cli := chain.map (fun p => (p, S + W)) ++ others) ho hs
    simp only [List.length_cons] at hc
    have hl' : Link w1.mem (w.mem p) chain := by
      rw [e1] at e3
      exact link_frame e3 fun q hq =>
        r4 q (.inr ⟨(q, S + W), List.mem_append_left _ (List.mem_map.mpr ⟨q, hq, rfl⟩), hqin q⟩)
    obtain ⟨s', w', own', x1, x2, x3, x4⟩ := clearLoop_ok ht hwf chain (hd := ⟨w.mem p, hd.count - 1⟩) r2 r3 hl' (by simp [hc])
    refine ⟨s', w', own', ?_, x2, x3, ?_⟩
    · simp only [List.length_cons, clearLoop, if_neg e2]
      rw [e1, hread]
      simp only [R.bind, r1]
      exact x1
    · intro x hx
      rw [x4 x hx]
      refine r4 x ?_
      rcases hx with hx | ⟨b, hb, hx⟩
      · exact .inl hx
      · exact .inr ⟨b, List.mem_append_right _ hb, hx⟩

theorem flatten_clear : ∀ {chains : List (List Nat)} {i : Nat} {c : List Nat},
    chains[i]? = some c → chains.flatten.Perm (c ++ (chains.set i []).flatten)
  | [], i, c, h => by simp at h
  | d :: cs, 0, c, h => by simp at h; subst h; simp
  | d :: cs, i + 1, c, h => by
    have := flatten_clear (chains := cs) (i := i) (c := c) (by simpa using h)
    simp only [List.set_cons_succ, List.flatten_cons]
    refine (List.Perm.append_left d this).trans ?_
    rw [← List.append_assoc, ← List.append_assoc]
    exact List.Perm.append_right _ List.perm_append_comm

theorem clear_ok {T t : Nat} (ht : t < T) {h : Expr} (hwf : h.Wf) : ∀ {s : h.St} {w : World} {own : List OB} {cli : List Blk}
    {rest : List OB}, Own T h s w.mem own cli → Split w own rest → DeallocOK T h cli rest w (clear t h s w) := by
  induction h with
  | base k => intro s w own cli rest ho hs; exact ⟨s, w, own, rfl, ho, hs, fun _ _ => rfl⟩
  | identity h ih => intro s w own cli rest ho hs; exact ih hwf ho hs
  | debugSize e h ih =>
    intro s w own cli rest ho hs
    obtain ⟨inner, h1, h2, h3⟩ := ho
    obtain ⟨s', w', own', r1, r2, r3, r4⟩ := ih hwf.2 h1 hs
    refine ⟨s', w', own', r1, ⟨inner, r2, fun b hb => ?_, h3⟩, r3, same_mono r4 (fun b hb => hb) fun b hb x hx => ?_⟩
    · have hb2 := h2 b hb
      refine ⟨hb2.1, ?_⟩
      rw [r4 b.1 (.inr ⟨b, hb, by simp only [inB]; have := hwf.1; omega⟩)]
      exact hb2.2
    · obtain ⟨b', hb', rfl⟩ := List.mem_map.mp (h3.mem_iff.mp hb)
      refine .inr ⟨b', hb', ?_⟩
      have := h2 b' hb'
      simp only [inB] at *; omega
  | withData e h ih =>
    intro s w own cli rest ho hs
    obtain ⟨inner, h1, h2, h3⟩ := ho
    obtain ⟨s', w', own', r1, r2, r3, r4⟩ := ih hwf.2 h1 hs
    refine ⟨s', w', own', r1, ⟨inner, r2, h2, h3⟩, r3, same_mono r4 (fun b hb => hb) fun b hb x hx => ?_⟩
    obtain ⟨b', hb', rfl⟩ := List.mem_map.mp (h3.mem_iff.mp hb)
    refine .inr ⟨b', hb', ?_⟩
    have := h2 b' hb'
    simp only [inB] at *; omega
  | split S a b iha ihb =>
    intro s w own cli rest ho hs
    obtain ⟨o1, o2, c1, c2, h1, h2, h3, h4, h5, h6⟩ := ho
    have hpp := pairwise_operm h1 hs.own_disj
    rw [List.pairwise_append] at hpp
    obtain ⟨b1, b2⟩ := own_geo h4 hpp.2.1
    have hs1 : Split w o1 (o2 ++ rest) := ⟨hs.good, by
      refine hs.perm.trans ?_
      rw [← List.append_assoc]; exact List.Perm.append_right _ h1⟩
    obtain ⟨s1, w1, own1, r1, r2, r3, r4⟩ := iha hwf.1 h3 hs1
    have h4' : Own T b s.2 w1.mem o2 c2 := by
      refine own_frame hwf.2 h4 hpp.2.1 ?_
      rintro x ⟨o, ho, hx⟩ _
      exact r4 x (.inl ⟨o, by simp [ho], hx⟩)
    have hs2 : Split w1 o2 (own1 ++ rest) := by
      refine ⟨r3.good, r3.perm.trans ?_⟩
      rw [← List.append_assoc, ← List.append_assoc]
      exact List.Perm.append_right _ List.perm_append_comm
    obtain ⟨s2, w2, own2, q1, q2, q3, q4⟩ := ihb hwf.2 h4' hs2
    have hd1 := r3.own_disj
    obtain ⟨a1, a2⟩ := own_geo r2 hd1
    simp only [clear, r1, R.bind, q1]
    refine ⟨_, _, own1 ++ own2, rfl, ⟨own1, own2, c1, c2, List.Perm.refl _, h2, ?_, q2, h5, h6⟩, ?_, ?_⟩
    · refine own_frame hwf.1 r2 hd1 ?_
      rintro x ⟨o, ho, hx⟩ _
      exact q4 x (.inl ⟨o, by simp [ho], hx⟩)
    · refine ⟨q3.good, q3.perm.trans ?_⟩
      rw [← List.append_assoc]
      exact List.Perm.append_right _ List.perm_append_comm
    · rintro x (⟨o, ho, hx⟩ | ⟨c, hc, hx⟩)
      · rw [q4 x (.inl ⟨o, by simp [ho], hx⟩), r4 x (.inl ⟨o, by simp [ho], hx⟩)]
      · rcases List.mem_append.mp (h2.mem_iff.mp hc) with hc | hc
        · obtain ⟨o, ho, hxo⟩ := a2 x c hc hx
          rw [q4 x (.inl ⟨o, by simp [ho], hxo⟩), r4 x (.inr ⟨c, hc, hx⟩)]
        · obtain ⟨o, ho, hxo⟩ := b2 x c hc hx
          rw [q4 x (.inr ⟨c, hc, hx⟩), r4 x (.inl ⟨o, by simp [ho], hxo⟩)]
  | freeList tl S L h ih =>
    intro s w own cli rest ho hs
    obtain ⟨ch, h1, h2, h3, h4⟩ := ho
    have hin : ∀ x b, b ∈ cli → inB x b → inB x (b.1, S + W) := by
      intro x b hb hx
      have := h4 b hb
      simp only [inB] at *; omega
    have hqin : ∀ q : Nat, inB q (q, S + W) := by intro q; simp only [inB, W]; omega
    cases tl with
    | false =>
      obtain ⟨s', w', own', r1, r2, r3, r4⟩ := ih hwf h2 hs
      simp only [clear, r1, R.bind]
      refine ⟨_, _, own', rfl, ⟨ch, h1, r2, ?_, h4⟩, r3, same_mono r4 (fun b hb => hb) fun b hb x hx => ?_⟩
      · intro i chain hi
        obtain ⟨l1, l2, l3⟩ := h3 i chain hi
        refine ⟨link_frame l1 fun q' hq' => r4 q' (.inr ⟨(q', S + W), ?_, hqin q'⟩), l2, l3⟩
        exact List.mem_append_left _ (List.mem_map.mpr ⟨q', mem_flatten_of hi hq', rfl⟩)
      · exact .inr ⟨(b.1, S + W), List.mem_append_right _ (List.mem_map.mpr ⟨b, hb, rfl⟩), hin x b hb hx⟩
    | true =>
      have htl : t < ch.length := by rw [h1]; simpa [lists] using ht
      have hi : ch[t]? = some ch[t] := List.getElem?_eq_getElem htl
      obtain ⟨l1, l2, l3⟩ := h3 t _ hi
      have hperm : (ch.flatten.map (fun p => (p, S + W)) ++ cli.map fun b => (b.1, S + W)).Perm
          (ch[t].map (fun p => (p, S + W)) ++ ((ch.set t []).flatten.map (fun p => (p, S + W)) ++ cli.map fun b => (b.1, S + W))) := by
        rw [← List.append_assoc, ← List.map_append]
        exact List.Perm.append_right _ ((flatten_clear hi).map _)
      obtain ⟨s1, w1, own1, r1, r2, r3, r4⟩ := clearLoop_ok (h := h) ht hwf ch[t] (own_perm h2 (List.Perm.refl _) hperm) hs l1 l2
      obtain ⟨s2, w2, own2, q1, q2, q3, q4⟩ := ih hwf r2 r3
      simp only [clear]
      rw [l2, r1]
      simp only [R.bind, q1]
      have hsame : Same w.mem w2.mem rest ((ch.set t []).flatten.map (fun p => (p, S + W)) ++ cli.map fun b => (b.1, S + W)) :=
        fun x hx => (q4 x hx).trans (r4 x hx)
      refine ⟨_, _, own2, rfl, ⟨ch.set t [], by simpa using h1, q2, ?_, h4⟩, q3, same_mono hsame (fun b hb => hb) fun b hb x hx => ?_⟩
      · intro i chain hi'
        by_cases hii : i = t
        · subst hii
          rw [List.getElem?_set_self htl] at hi'
          cases hi'
          simp only [setH, if_true]
          exact ⟨rfl, rfl, Nat.zero_le _⟩
        · have hi2 := hi'
          rw [List.getElem?_set_ne (Ne.symm hii)] at hi'
          simp only [setH, if_neg hii]
          obtain ⟨l1, l2, l3⟩ := h3 i chain hi'
          refine ⟨link_frame l1 fun q' hq' => hsame q' (.inr ⟨(q', S + W), ?_, hqin q'⟩), l2, l3⟩
          exact List.mem_append_left _ (List.mem_map.mpr ⟨q', mem_flatten_of hi2 hq', rfl⟩)
      · exact .inr ⟨(b.1, S + W), List.mem_append_right _ (List.mem_map.mpr ⟨b, hb, rfl⟩), hin x b hb hx⟩

/-! ### How much is cached -/

/-- number of blocks that the lists of a stack may hold -/
def Expr.room (T : Nat) : Expr → Nat
  | .base _ => 0
  | .identity h | .debugSize _ h | .withData _ h => h.room T
  | .split _ a b => a.room T + b.room T
  | .freeList tl _ L h => (if tl then T else 1) * L + h.room T

theorem flatten_le {L : Nat} : ∀ {chains : List (List Nat)}, (∀ (i : Nat) (c : List Nat), chains[i]? = some c → c.length ≤ L) →
    chains.flatten.length ≤ chains.length * L
  | [], _ => by simp
  | c :: cs, h => by
    have h1 := h 0 c (by simp)
    have h2 := flatten_le (chains := cs) (L := L) fun i c hc => h (i + 1) c (by simpa using hc)
    simp only [List.flatten_cons, List.length_append, List.length_cons, Nat.add_mul]
    omega

theorem own_room {T : Nat} {h : Expr} : ∀ {s : h.St} {m : Nat → Nat} {own : List OB} {cli : List Blk},
    Own T h s m own cli → cli.length ≤ own.length ∧ own.length ≤ cli.length + h.room T := by
  induction h with
  | base k => intro s m own cli h; have := h.length_eq; simp at this; simp [this]
  | identity h ih => intro s m own cli h; exact ih h
  | debugSize e h ih =>
    intro s m own cli hh
    obtain ⟨inner, h1, h2, h3⟩ := hh
    have := h3.length_eq
    rw [List.length_map] at this
    rw [this]
    exact ih h1
  | withData e h ih =>
    intro s m own cli hh
    obtain ⟨inner, h1, h2, h3⟩ := hh
    have := h3.length_eq
    rw [List.length_map] at this
    rw [this]
    exact ih h1
  | split S a b iha ihb =>
    intro s m own cli hh
    obtain ⟨o1, o2, c1, c2, h1, h2, h3, h4, -, -⟩ := hh
    have e1 := h1.length_eq
    have e2 := h2.length_eq
    rw [List.length_append] at e1 e2
    have := iha h3
    have := ihb h4
    simp only [Expr.room]
    omega
  | freeList tl S L h ih =>
    intro s m own cli hh
    obtain ⟨ch, h1, h2, h3, h4⟩ := hh
    have h5 := ih h2
    have h6 := flatten_le (chains := ch) (L := L) fun i c hc => (h3 i c hc).2.2
    rw [h1] at h6
    simp only [List.length_append, List.length_map] at h5
    simp only [Expr.room]
    have : lists tl T * L = (if tl then T else 1) * L := rfl
    omega

end Heap
