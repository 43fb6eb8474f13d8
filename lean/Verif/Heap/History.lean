import Verif.Heap.Adaptors

/-!
# Histories of use of a stack of heap adaptors

Clients (in any of `T` threads) obtain blocks, write to them, give them back (in the same or another thread), and
threads end.  The specification is what each client may rely on: its blocks are its own, and keep what it wrote.
-/

namespace Heap

inductive Ev where
  /-- thread `t` asks for `n` bytes; `c` is the address that an underlying heap gives, if asked -/
  | alloc (t n c : Nat)
  /-- thread `t` gives back the `i`th outstanding block -/
  | free (t i : Nat)
  /-- the client writes `v` at offset `off` of its `i`th outstanding block -/
  | store (i off v : Nat)
  /-- thread `t` ends -/
  | exit (t : Nat)

/-- a block in the hands of a client, and what the client wrote there -/
structure Held where
  blk : Blk
  wrote : Nat → Option Nat

structure Sys (h : Expr) where
  s : h.St
  w : World
  held : List Held

def Sys.init (h : Expr) (m : Nat → Nat) : Sys h := ⟨h.init, ⟨[], m⟩, []⟩

instance instDecSizeOk : (h : Expr) → (n : Nat) → Decidable (h.sizeOk n)
  | .base _, n => inferInstanceAs (Decidable (0 < n))
  | .identity h, n => instDecSizeOk h n
  | .debugSize e h, n => instDecSizeOk h (n + e)
  | .withData e h, n => instDecSizeOk h (n + e)
  | .split S a b, n => by
      have := instDecSizeOk a n
      have := instDecSizeOk b n
      exact inferInstanceAs (Decidable (if n ≤ S then a.sizeOk n else b.sizeOk n))
  | .freeList _ S _ h, n => by
      have := instDecSizeOk h (S + W)
      exact inferInstanceAs (Decidable (W ≤ n ∧ n ≤ S + W ∧ h.sizeOk (S + W)))

/-- one event; `no` also when the client breaks its side of the contract -/
def step (T : Nat) {h : Expr} (e : Ev) (S : Sys h) : R (Sys h) :=
  match e with
  | .alloc t n c =>
      if t < T ∧ h.sizeOk n then
        (Heap.alloc t c h n S.s S.w).bind fun r => .ok ⟨r.2.1, r.2.2, ⟨(r.1, n), fun _ => none⟩ :: S.held⟩
      else .no
  | .free t i =>
      match S.held[i]? with
      | some b =>
          if t < T then (dealloc t h b.blk.2 b.blk.1 S.s S.w).bind fun r => .ok ⟨r.1, r.2, S.held.eraseIdx i⟩ else .no
      | none => .no
  | .store i off v =>
      match S.held[i]? with
      | some b =>
          if off < b.blk.2 then
            (S.w.write (b.blk.1 + off) v).bind fun w =>
              .ok ⟨S.s, w, S.held.set i ⟨b.blk, fun o => if o = off then some v else b.wrote o⟩⟩
          else .no
      | none => .no
  | .exit t => if t < T then (clear t h S.s S.w).bind fun r => .ok ⟨r.1, r.2, S.held⟩ else .no

def run (T : Nat) {h : Expr} : List Ev → Sys h → R (Sys h)
  | [], S => .ok S
  | e :: es, S => (step T e S).bind fun S' => run T es S'

/-- what holds at any time -/
structure SInv (T : Nat) {h : Expr} (S : Sys h) : Prop where
  good : ∃ own, Own T h S.s S.w.mem own (S.held.map Held.blk) ∧ Split S.w own []
  kept : ∀ b ∈ S.held, ∀ o v, b.wrote o = some v → o < b.blk.2 ∧ S.w.mem (b.blk.1 + o) = v

theorem own_init {T : Nat} {h : Expr} {m : Nat → Nat} : Own T h h.init m [] [] := by
  induction h with
  | base k => exact List.Perm.refl _
  | identity h ih => exact ih
  | debugSize e h ih => exact ⟨[], ih, fun b hb => by simp at hb, by simp⟩
  | withData e h ih => exact ⟨[], ih, fun b hb => by simp at hb, by simp⟩
  | split S a b iha ihb =>
    exact ⟨[], [], [], [], List.Perm.refl _, List.Perm.refl _, iha, ihb, fun b hb => by simp at hb, fun b hb => by simp at hb⟩
  | freeList tl S L h ih =>
    refine ⟨List.replicate (lists tl T) [], by simp, ?_, ?_, fun b hb => by simp at hb⟩
    · have hn : (List.replicate (lists tl T) ([] : List Nat)).flatten = [] := by simp
      rw [hn]
      exact ih
    · intro i c hc
      have := List.mem_of_getElem? hc
      rw [List.mem_replicate] at this
      rw [this.2]
      exact ⟨rfl, rfl, Nat.zero_le _⟩

theorem init_inv (T : Nat) (h : Expr) (m : Nat → Nat) : SInv T (Sys.init h m) :=
  ⟨⟨[], own_init, ⟨⟨List.Pairwise.nil, fun b hb => by simp [Sys.init] at hb⟩, List.Perm.refl _⟩⟩,
    fun b hb => by simp [Sys.init] at hb⟩

theorem inB_off {b : Blk} {o : Nat} (h : o < b.2) : inB (b.1 + o) b := by simp only [inB]; omega

theorem erase_perm {α : Type} : ∀ {l : List α} {i : Nat} {a : α}, l[i]? = some a → l.Perm (a :: l.eraseIdx i)
  | [], i, a, h => by simp at h
  | b :: l, 0, a, h => by simp at h; subst h; simp
  | b :: l, i + 1, a, h => by
    have := erase_perm (l := l) (i := i) (a := a) (by simpa using h)
    rw [List.eraseIdx_cons_succ]
    exact (List.Perm.cons b this).trans (List.Perm.swap _ _ _)

theorem step_inv {T : Nat} {h : Expr} (hwf : h.Wf) {e : Ev} {S : Sys h} (hi : SInv T S) :
    step T e S ≠ .ub ∧ ∀ S', step T e S = .ok S' → SInv T S' := by
  obtain ⟨⟨own, ho, hs⟩, hk⟩ := hi
  cases e with
  | alloc t n c =>
    simp only [step]
    split
    · rename_i hc
      obtain ⟨hu, hok⟩ := alloc_ok (c := c) hc.1 hwf ho hs hc.2
      cases hr : alloc t c h n S.s S.w with
      | ub => exact absurd hr hu
      | no => exact ⟨R.no_ne_ub, fun _ h => (R.no_ne_ok h).elim⟩
      | ok r =>
        obtain ⟨p, s', w'⟩ := r
        obtain ⟨own', o1, o2, o3⟩ := hok p s' w' hr
        refine ⟨R.ok_ne_ub, ?_⟩
        rintro S' ⟨⟩
        refine ⟨⟨own', o1, o2⟩, ?_⟩
        intro b hb o v hv
        rcases List.mem_cons.mp hb with rfl | hb
        · cases hv
        · obtain ⟨k1, k2⟩ := hk b hb o v hv
          refine ⟨k1, ?_⟩
          rw [o3 _ (.inr ⟨b.blk, List.mem_map.mpr ⟨b, hb, rfl⟩, inB_off k1⟩), k2]
    · exact ⟨R.no_ne_ub, fun _ h => (R.no_ne_ok h).elim⟩
  | free t i =>
    simp only [step]
    split
    · rename_i b hb
      split
      · rename_i ht
        have hp := (erase_perm hb).map Held.blk
        obtain ⟨s', w', own', r1, r2, r3, r4⟩ := dealloc_ok ht hwf (own_perm ho (List.Perm.refl _) hp) hs
        rw [r1]
        refine ⟨R.ok_ne_ub, ?_⟩
        rintro S' ⟨⟩
        refine ⟨⟨own', r2, r3⟩, ?_⟩
        intro b' hb' o v hv
        obtain ⟨k1, k2⟩ := hk b' (List.mem_of_mem_eraseIdx hb') o v hv
        exact ⟨k1, by rw [r4 _ (.inr ⟨b'.blk, List.mem_map.mpr ⟨b', hb', rfl⟩, inB_off k1⟩), k2]⟩
      · exact ⟨R.no_ne_ub, fun _ h => (R.no_ne_ok h).elim⟩
    · exact ⟨R.no_ne_ub, fun _ h => (R.no_ne_ok h).elim⟩
  | store i off v =>
    simp only [step]
    split
    · rename_i b hb
      split
      · rename_i hoff
        obtain ⟨g1, g2⟩ := own_geo ho hs.own_disj
        have hbm : b ∈ S.held := List.mem_of_getElem? hb
        have hin := inB_off hoff
        obtain ⟨w1, w2⟩ := hs.write (g2 _ b.blk (List.mem_map.mpr ⟨b, hbm, rfl⟩) hin) v
        rw [w1]
        refine ⟨R.ok_ne_ub, ?_⟩
        rintro S' ⟨⟩
        have hmap : (S.held.set i ⟨b.blk, fun o => if o = off then some v else b.wrote o⟩).map Held.blk =
            S.held.map Held.blk := by
          rw [List.map_set]
          refine List.ext_getElem? fun j => ?_
          by_cases hj : i = j
          · subst hj
            rw [List.getElem?_set_self (by rw [List.length_map]; exact (List.getElem?_eq_some_iff.mp hb).1), List.getElem?_map, hb]
            rfl
          · rw [List.getElem?_set_ne hj]
        refine ⟨⟨own, ?_, w2⟩, ?_⟩
        · simp only [hmap]
          refine own_frame hwf ho hs.own_disj ?_
          intro x _ hc
          refine put_ne ?_
          rintro rfl
          exact hc b.blk (List.mem_map.mpr ⟨b, hbm, rfl⟩) hin
        · intro b' hb' o v' hv'
          obtain ⟨j, hj⟩ := List.mem_iff_getElem?.mp hb'
          have hil := (List.getElem?_eq_some_iff.mp hb).1
          by_cases hij : i = j
          · subst hij
            rw [List.getElem?_set_self hil] at hj
            cases hj
            simp only at hv' ⊢
            split at hv'
            · rename_i heq
              cases hv'
              subst heq
              exact ⟨hoff, put_self⟩
            · rename_i hne
              obtain ⟨k1, k2⟩ := hk b hbm o v' hv'
              exact ⟨k1, by rw [put_ne (by omega), k2]⟩
          · rw [List.getElem?_set_ne hij] at hj
            obtain ⟨k1, k2⟩ := hk b' (List.mem_of_getElem? hj) o v' hv'
            refine ⟨k1, ?_⟩
            simp only
            rw [put_ne, k2]
            intro heq
            have hd : Disj b.blk b'.blk := by
              rcases Nat.lt_or_gt_of_ne hij with hlt | hlt
              · have := List.pairwise_iff_getElem.mp g1 i j (by simpa using hil)
                  (by simpa using (List.getElem?_eq_some_iff.mp hj).1) hlt
                simp only [List.getElem_map, (List.getElem?_eq_some_iff.mp hj).2, (List.getElem?_eq_some_iff.mp hb).2] at this
                exact this
              · have := List.pairwise_iff_getElem.mp g1 j i (by simpa using (List.getElem?_eq_some_iff.mp hj).1)
                  (by simpa using hil) hlt
                simp only [List.getElem_map, (List.getElem?_eq_some_iff.mp hj).2, (List.getElem?_eq_some_iff.mp hb).2] at this
                exact Disj.symm this
            exact hd _ hin (heq ▸ inB_off k1)
      · exact ⟨R.no_ne_ub, fun _ h => (R.no_ne_ok h).elim⟩
    · exact ⟨R.no_ne_ub, fun _ h => (R.no_ne_ok h).elim⟩
  | exit t =>
    simp only [step]
    split
    · rename_i ht
      obtain ⟨s', w', own', r1, r2, r3, r4⟩ := clear_ok ht hwf ho hs
      rw [r1]
      refine ⟨R.ok_ne_ub, ?_⟩
      rintro S' ⟨⟩
      refine ⟨⟨own', r2, r3⟩, ?_⟩
      intro b hb o v hv
      obtain ⟨k1, k2⟩ := hk b hb o v hv
      exact ⟨k1, by rw [r4 _ (.inr ⟨b.blk, List.mem_map.mpr ⟨b, hb, rfl⟩, inB_off k1⟩), k2]⟩
    · exact ⟨R.no_ne_ub, fun _ h => (R.no_ne_ok h).elim⟩

theorem run_inv {T : Nat} {h : Expr} (hwf : h.Wf) : ∀ {es : List Ev} {S : Sys h}, SInv T S →
    run T es S ≠ .ub ∧ ∀ S', run T es S = .ok S' → SInv T S'
  | [], S, hi => ⟨R.ok_ne_ub, fun S' h => by cases h; exact hi⟩
  | e :: es, S, hi => by
    obtain ⟨h1, h2⟩ := step_inv hwf (e := e) hi
    simp only [run]
    cases hr : step T e S with
    | ub => exact absurd hr h1
    | no => exact ⟨R.no_ne_ub, fun _ h => (R.no_ne_ok h).elim⟩
    | ok S1 => exact run_inv hwf (h2 S1 hr)

/-- **C35** (and **C34** for one thread or thread-local lists).  For every stack of adaptors, number of threads and
history: nothing is undefined (no free-list node or header is read or written outside memory of the underlying heaps, no
assertion fails, every block goes back to the underlying heap it came from at the address and with the size it was
obtained with), and at any time the outstanding blocks are disjoint, lie in memory of the underlying heaps, and hold what
their clients last wrote. -/
theorem C35_blocks {T : Nat} {h : Expr} (hwf : h.Wf) (m : Nat → Nat) (es : List Ev) :
    run T es (Sys.init h m) ≠ .ub ∧ ∀ S, run T es (Sys.init h m) = .ok S →
      (S.held.map Held.blk).Pairwise Disj ∧
      (∀ b ∈ S.held, ∀ x, inB x b.blk → ∃ o ∈ S.w.live, inB x o.1) ∧
      ∀ b ∈ S.held, ∀ o v, b.wrote o = some v → S.w.mem (b.blk.1 + o) = v := by
  obtain ⟨h1, h2⟩ := run_inv hwf (es := es) (init_inv T h m)
  refine ⟨h1, fun S hS => ?_⟩
  obtain ⟨⟨own, ho, hs⟩, hk⟩ := h2 S hS
  obtain ⟨g1, g2⟩ := own_geo ho hs.own_disj
  refine ⟨g1, fun b hb x hx => ?_, fun b hb o v hv => (hk b hb o v hv).2⟩
  obtain ⟨o, ho', hxo⟩ := g2 x b.blk (List.mem_map.mpr ⟨b, hb, rfl⟩) hx
  exact ⟨o, hs.perm.mem_iff.mpr (by simpa using ho'), hxo⟩

/-- **C34**: the lists never hold more blocks than their limits allow: beyond the outstanding blocks, at most `Limit` for
a global list and `Limit` per thread for a thread-local one.  Without lists (`room = 0`), every block given back has been
given back to its underlying heap. -/
theorem C34_cached {T : Nat} {h : Expr} (hwf : h.Wf) (m : Nat → Nat) (es : List Ev) (S : Sys h)
    (hS : run T es (Sys.init h m) = .ok S) :
    S.held.length ≤ S.w.live.length ∧ S.w.live.length ≤ S.held.length + h.room T := by
  obtain ⟨⟨own, ho, hs⟩, hk⟩ := (run_inv hwf (es := es) (init_inv T h m)).2 S hS
  have := own_room ho
  have h2 := hs.perm.length_eq
  simp only [List.length_map, List.append_nil] at this h2
  omega

/-! ### Ending threads returns what their lists held -/

/-- every thread-local list of thread `t` is empty -/
def Empty (t : Nat) : (h : Expr) → h.St → Prop
  | .base _, _ => True
  | .identity h, s | .debugSize _ h, s | .withData _ h, s => Empty t h s
  | .split _ a b, s => Empty t a s.1 ∧ Empty t b s.2
  | .freeList tl _ _ h, s => (tl = true → (s.1 t).data = 0) ∧ Empty t h s.2

/-- a stack without global lists -/
def Expr.local : Expr → Prop
  | .base _ => True
  | .identity h | .debugSize _ h | .withData _ h => h.local
  | .split _ a b => a.local ∧ b.local
  | .freeList tl _ _ h => tl = true ∧ h.local

/-- with all lists empty, the stack has from the underlying heaps only what its clients hold -/
theorem own_empty {T : Nat} {h : Expr} (hl : h.local) : ∀ {s : h.St} {m : Nat → Nat} {own : List OB} {cli : List Blk},
    Own T h s m own cli → (∀ t < T, Empty t h s) → own.length = cli.length := by
  induction h with
  | base k => intro s m own cli h _; have := h.length_eq; simpa using this
  | identity h ih => intro s m own cli h he; exact ih hl h he
  | debugSize e h ih =>
    intro s m own cli hh he
    obtain ⟨inner, h1, h2, h3⟩ := hh
    have := h3.length_eq
    rw [List.length_map] at this
    rw [this]
    exact ih hl h1 he
  | withData e h ih =>
    intro s m own cli hh he
    obtain ⟨inner, h1, h2, h3⟩ := hh
    have := h3.length_eq
    rw [List.length_map] at this
    rw [this]
    exact ih hl h1 he
  | split S a b iha ihb =>
    intro s m own cli hh he
    obtain ⟨o1, o2, c1, c2, h1, h2, h3, h4, -, -⟩ := hh
    have e1 := h1.length_eq
    have e2 := h2.length_eq
    rw [List.length_append] at e1 e2
    have := iha hl.1 h3 fun t ht => (he t ht).1
    have := ihb hl.2 h4 fun t ht => (he t ht).2
    omega
  | freeList tl S L h ih =>
    intro s m own cli hh he
    obtain ⟨ch, h1, h2, h3, h4⟩ := hh
    have h5 := ih hl.2 h2 fun t ht => (he t ht).2
    simp only [List.length_append, List.length_map] at h5
    obtain ⟨rfl, -⟩ := hl
    have hnil : ch.flatten = [] := by
      rw [List.flatten_eq_nil_iff]
      intro c hc
      obtain ⟨i, hi⟩ := List.mem_iff_getElem?.mp hc
      have hiT : i < T := by
        have := (List.getElem?_eq_some_iff.mp hi).1
        rw [h1] at this; simpa [lists] using this
      have hz := (he i hiT).1 rfl
      have hlk := (h3 i c hi).1
      cases c with
      | nil => rfl
      | cons p c => exact absurd hz hlk.2.1
    rw [hnil] at h5
    simpa using h5

theorem R.bind_eq_ok {α β : Type} {x : R α} {f : α → R β} {b : β} (h : x.bind f = .ok b) : ∃ a, x = .ok a ∧ f a = .ok b := by
  cases x with
  | ok a => exact ⟨a, rfl, h⟩
  | no => cases h
  | ub => cases h

theorem R.of_ite {α : Type} {c : Prop} [Decidable c] {x : R α} {a : α} (h : (if c then x else .ub) = .ok a) : x = .ok a := by
  split at h
  · exact h
  · cases h

theorem R.of_ite' {α : Type} {c : Prop} [Decidable c] {x : R α} {a : α} (h : (if c then .ub else x) = .ok a) : x = .ok a := by
  split at h
  · cases h
  · exact h

theorem dealloc_empty {t t' : Nat} (hne : t' ≠ t) {h : Expr} : ∀ {n p : Nat} {s : h.St} {w : World} {s' : h.St} {w' : World},
    dealloc t h n p s w = .ok (s', w') → Empty t' h s → Empty t' h s' := by
  induction h with
  | base k => intros; trivial
  | identity h ih => intro n p s w s' w' h he; exact ih h he
  | debugSize e h ih =>
    intro n p s w s' w' hd he
    simp only [dealloc] at hd
    split at hd
    · cases hd
    · obtain ⟨k, -, hd⟩ := R.bind_eq_ok hd
      exact ih (R.of_ite hd) he
  | withData e h ih =>
    intro n p s w s' w' hd he
    exact ih (R.of_ite' hd) he
  | split S a b iha ihb =>
    intro n p s w s' w' hd he
    simp only [dealloc] at hd
    split at hd
    · obtain ⟨r, hr, hd⟩ := R.bind_eq_ok hd
      cases hd
      exact ⟨iha hr he.1, he.2⟩
    · obtain ⟨r, hr, hd⟩ := R.bind_eq_ok hd
      cases hd
      exact ⟨he.1, ihb hr he.2⟩
  | freeList tl S L h ih =>
    intro n p s w s' w' hd he
    simp only [dealloc] at hd
    split at hd
    · split at hd
      · obtain ⟨r, hr, hd⟩ := R.bind_eq_ok hd
        cases hd
        exact ⟨he.1, ih hr he.2⟩
      · obtain ⟨r, hr, hd⟩ := R.bind_eq_ok hd
        cases hd
        refine ⟨fun htl => ?_, he.2⟩
        subst htl
        simp only [setH, slot, if_true, if_neg hne]
        exact he.1 rfl
    · cases hd

theorem clearLoop_empty {t t' S : Nat} (hne : t' ≠ t) {h : Expr} : ∀ (fuel : Nat) {hd : Head} {s : h.St} {w : World}
    {hd' : Head} {s' : h.St} {w' : World}, clearLoop t S h fuel hd s w = .ok (hd', s', w') → Empty t' h s → Empty t' h s'
  | 0, hd, s, w, hd', s', w', h, he => by
    simp only [clearLoop] at h
    split at h
    · cases h; exact he
    · cases h
  | fuel + 1, hd, s, w, hd', s', w', h, he => by
    simp only [clearLoop] at h
    split at h
    · cases h; exact he
    · obtain ⟨nx, -, h⟩ := R.bind_eq_ok h
      obtain ⟨r, hr, h⟩ := R.bind_eq_ok h
      exact clearLoop_empty hne fuel h (dealloc_empty hne hr he)

theorem clearLoop_zero {t S : Nat} {h : Expr} : ∀ (fuel : Nat) {hd : Head} {s : h.St} {w : World}
    {hd' : Head} {s' : h.St} {w' : World}, clearLoop t S h fuel hd s w = .ok (hd', s', w') → hd'.data = 0
  | 0, hd, s, w, hd', s', w', h => by
    simp only [clearLoop] at h
    split at h
    · cases h; assumption
    · cases h
  | fuel + 1, hd, s, w, hd', s', w', h => by
    simp only [clearLoop] at h
    split at h
    · cases h; assumption
    · obtain ⟨nx, -, h⟩ := R.bind_eq_ok h
      obtain ⟨r, hr, h⟩ := R.bind_eq_ok h
      exact clearLoop_zero fuel h

theorem clear_empty {t : Nat} {h : Expr} : ∀ {s : h.St} {w : World} {s' : h.St} {w' : World},
    clear t h s w = .ok (s', w') → Empty t h s' ∧ ∀ t', t' ≠ t → Empty t' h s → Empty t' h s' := by
  induction h with
  | base k => intros; exact ⟨trivial, fun _ _ _ => trivial⟩
  | identity h ih => intro s w s' w' hc; exact ih hc
  | debugSize e h ih => intro s w s' w' hc; exact ih hc
  | withData e h ih => intro s w s' w' hc; exact ih hc
  | split S a b iha ihb =>
    intro s w s' w' hc
    simp only [clear] at hc
    obtain ⟨r, hr, hc⟩ := R.bind_eq_ok hc
    obtain ⟨q, hq, hc⟩ := R.bind_eq_ok hc
    cases hc
    have h1 := iha hr
    have h2 := ihb hq
    exact ⟨⟨h1.1, h2.1⟩, fun t' ht he => ⟨h1.2 t' ht he.1, h2.2 t' ht he.2⟩⟩
  | freeList tl S L h ih =>
    intro s w s' w' hc
    cases tl with
    | false =>
      simp only [clear] at hc
      obtain ⟨r, hr, hc⟩ := R.bind_eq_ok hc
      cases hc
      have h1 := ih hr
      exact ⟨⟨fun h => (by cases h), h1.1⟩, fun t' ht he => ⟨he.1, h1.2 t' ht he.2⟩⟩
    | true =>
      simp only [clear] at hc
      obtain ⟨r, hr, hc⟩ := R.bind_eq_ok hc
      obtain ⟨q, hq, hc⟩ := R.bind_eq_ok hc
      cases hc
      have h1 := ih hq
      refine ⟨⟨fun _ => ?_, h1.1⟩, fun t' ht he => ⟨fun _ => ?_, h1.2 t' ht (clearLoop_empty ht _ hr he.2)⟩⟩
      · simp only [setH, if_true]
        exact clearLoop_zero _ hr
      · simp only [setH, if_neg ht]
        exact he.1 rfl

theorem run_append {T : Nat} {h : Expr} : ∀ {es fs : List Ev} {S : Sys h},
    run T (es ++ fs) S = (run T es S).bind fun S' => run T fs S'
  | [], fs, S => rfl
  | e :: es, fs, S => by
    simp only [List.cons_append, run]
    cases step T e S with
    | ok a => exact run_append
    | no => rfl
    | ub => rfl

theorem exits_ok {T : Nat} {h : Expr} (hwf : h.Wf) : ∀ {ts : List Nat} {S : Sys h} (done : Nat → Prop), SInv T S →
    (∀ t ∈ ts, t < T) → (∀ t, done t → Empty t h S.s) →
    ∃ S', run T (ts.map Ev.exit) S = .ok S' ∧ S'.held = S.held ∧ ∀ t, (done t ∨ t ∈ ts) → Empty t h S'.s
  | [], S, done, hi, hts, hd => ⟨S, rfl, rfl, fun t ht => hd t (by simpa using ht)⟩
  | t :: ts, S, done, hi, hts, hd => by
    have hi0 := hi
    obtain ⟨⟨own, ho, hs⟩, hk⟩ := hi
    have ht := hts t (by simp)
    obtain ⟨s', w', own', r1, -⟩ := clear_ok ht hwf ho hs
    have hstep : step T (.exit t) S = .ok ⟨s', w', S.held⟩ := by simp only [step, if_pos ht, r1, R.bind]
    obtain ⟨e1, e2⟩ := clear_empty r1
    obtain ⟨S', h1, h2, h3⟩ := exits_ok hwf (ts := ts) (S := ⟨s', w', S.held⟩) (fun x => done x ∨ x = t)
      ((step_inv hwf hi0).2 _ hstep) (fun x hx => hts x (by simp [hx])) (by
        rintro x (hx | rfl)
        · by_cases hxt : x = t
          · subst hxt; exact e1
          · exact e2 x hxt (hd x hx)
        · exact e1)
    refine ⟨S', ?_, h2, fun x hx => h3 x ?_⟩
    · simp only [List.map_cons, run, hstep, R.bind]; exact h1
    · rcases hx with hx | hx
      · exact .inl (.inl hx)
      · rcases List.mem_cons.mp hx with rfl | hx
        · exact .inl (.inr rfl)
        · exact .inr hx

/-- **C34**: when all threads have ended, thread-local lists have given everything back: the underlying heaps have
outstanding only what the clients still hold (all of it if they gave everything back). -/
theorem C34_returned {T : Nat} {h : Expr} (hwf : h.Wf) (hl : h.local) (m : Nat → Nat) (es : List Ev) (S : Sys h)
    (hS : run T es (Sys.init h m) = .ok S) :
    ∃ S', run T (es ++ (List.range T).map Ev.exit) (Sys.init h m) = .ok S' ∧ S'.held = S.held ∧
      S'.w.live.length = S.held.length := by
  have hi := (run_inv hwf (es := es) (init_inv T h m)).2 S hS
  obtain ⟨S', h1, h2, h3⟩ := exits_ok hwf (ts := List.range T) (fun _ => False) hi (fun t ht => List.mem_range.mp ht)
    (fun _ h => h.elim)
  have hrun : run T (es ++ (List.range T).map Ev.exit) (Sys.init h m) = .ok S' := by rw [run_append, hS]; exact h1
  refine ⟨S', hrun, h2, ?_⟩
  obtain ⟨⟨own, ho, hs⟩, -⟩ := (run_inv hwf (init_inv T h m)).2 S' hrun
  have e1 := own_empty hl ho fun t ht => h3 t (.inr (List.mem_range.mpr ht))
  have e2 := hs.perm.length_eq
  rw [List.append_nil] at e2
  rw [List.length_map, h2] at e1
  omega

/-! ### Example: the stacks of `heap_policy.hpp` -/

/-- `free_list_heap_policy::optimized<Size>::type` (108-117), with the lock-free list used by one thread at a time -/
def freeListPolicy (k S L : Nat) : Expr :=
  .split S (.withData 8 (.freeList true S L (.freeList false S L (.debugSize 16 (.base k))))) (.debugSize 16 (.base k))

/-- `unsafe_free_list_heap_policy::optimized<Size>::type` (130-139) -/
def unsafePolicy (k S L : Nat) : Expr :=
  .split S (.withData 8 (.freeList false S L (.debugSize 16 (.base k)))) (.debugSize 16 (.base k))

/-- these stacks accept any size -/
theorem policies_accept (k S L n : Nat) (hn : 0 < n) : (freeListPolicy k S L).sizeOk n ∧ (unsafePolicy k S L).sizeOk n := by
  by_cases h : n ≤ S
  · simp only [freeListPolicy, unsafePolicy, Expr.sizeOk, if_pos h, W]; omega
  · simp only [freeListPolicy, unsafePolicy, Expr.sizeOk, if_neg h, W]; omega

theorem policies_wf (k S L : Nat) : (freeListPolicy k S L).Wf ∧ (unsafePolicy k S L).Wf := by
  simp [freeListPolicy, unsafePolicy, Expr.Wf]

/-- a history with small and big blocks, blocks given back by another thread, and reuse of a block -/
def exampleHistory : List Ev :=
  [.alloc 0 40 1000, .alloc 1 64 2000, .alloc 0 200 3000, .store 0 199 7, .store 2 0 9, .free 1 1, .alloc 1 10 0,
    .store 0 9 5, .free 0 2, .free 1 1, .exit 1, .alloc 0 33 4000, .store 0 32 1]

def R.val {α β : Type} (f : α → β) (d : β) : R α → β
  | .ok a => f a
  | _ => d

/-- it is a history (nothing in it is refused), the block at 2000 is reused (with what was before it), and the limit
keeps one block from the list of thread 0 -/
example : (run 2 exampleHistory (Sys.init (freeListPolicy 0 64 1) fun _ => 0)).val
    (fun S => (S.held.map Held.blk, S.w.live)) ([], []) =
    ([(1024, 33), (2024, 10)], [((2000, 88), 0), ((1000, 88), 0)]) := by decide +kernel

example : (run 2 (exampleHistory ++ [.free 0 0, .free 0 0, .exit 0, .exit 1]) (Sys.init (freeListPolicy 0 64 1) fun _ => 0)).val
    (fun S => (S.held.map Held.blk, S.w.live)) ([], []) = ([], [((2000, 88), 0)]) := by decide +kernel

end Heap
