import Verif.Conc.Atom

/-!
# `box.hpp`

Boxes as variables that point to counted holders; allocation returns any address not in use.  A box that was moved
from is null (`box(box&&)`, 98), and using it other than by assigning to it or destroying it is undefined.
-/

namespace Box

open Conc.Atom (Holder rcv valv upd rcv_upd valv_upd)

variable {V : Type}

inductive Op (V : Type) where
  /-- `box i{v}` (66-90) -/
  | make (i : Nat) (v : V)
  /-- `box i{j}` (99-103) -/
  | copy (i j : Nat)
  /-- `box i{std::move(j)}` (98) -/
  | move (i j : Nat)
  /-- `i = j` (109-114) -/
  | assign (i j : Nat)
  /-- `i = std::move(j)` (104-108) -/
  | massign (i j : Nat)
  /-- `~box` (115-121) -/
  | destroy (i : Nat)
  /-- `box i = j.update(f)` (150-154) -/
  | update (i j : Nat) (f : V → V)
  /-- `std::move(i).update(f)` (155-163) -/
  | updateMove (i : Nat) (f : V → V)

/-! ### Specification: variables with values

`none` is no box, or one moved from. -/

def spec (op : Op V) (e : List (Option V)) : Option (List (Option V)) :=
  match op with
  | .make i v =>
      match e[i]? with
      | some none => some (e.set i (some v))
      | _ => none
  | .copy i j =>
      match e[i]?, e[j]? with
      | some none, some (some v) => some (e.set i (some v))
      | _, _ => none
  | .assign i j =>
      match e[i]?, e[j]? with
      | some _, some (some v) => some (e.set i (some v))
      | _, _ => none
  | .move i j =>
      match e[i]?, e[j]? with
      | some none, some x => some ((e.set i x).set j none)
      | _, _ => none
  | .massign i j =>
      match e[i]?, e[j]? with
      | some x, some y => some ((e.set i y).set j x)
      | _, _ => none
  | .destroy i =>
      match e[i]? with
      | some _ => some (e.set i none)
      | none => none
  | .update i j f =>
      match e[i]?, e[j]? with
      | some none, some (some v) => some (e.set i (some (f v)))
      | _, _ => none
  | .updateMove i f =>
      match e[i]? with
      | some (some v) => some (e.set i (some (f v)))
      | _ => none

/-! ### Implementation -/

structure St (V : Type) where
  mem : Nat → Option (Holder V)
  /-- `impl_` of each variable -/
  vars : List (Option Nat)
  /-- a null pointer or a dead holder was accessed -/
  fault : Bool

def St.inc (s : St V) (p : Nat) : St V :=
  match s.mem p with
  | some c => { s with mem := upd s.mem p (some { c with rc := c.rc + 1 }) }
  | none => { s with fault := true }

/-- `~box` of a variable with `impl_ = x` (115-121) -/
def St.drop (s : St V) (x : Option Nat) : St V :=
  match x with
  | none => s
  | some p =>
      match s.mem p with
      | some c => { s with mem := upd s.mem p (if c.rc = 1 then none else some { c with rc := c.rc - 1 }) }
      | none => { s with fault := true }

/-- A new holder at `a` (`detail::make`), which the heap may return if it is not in use; `none` if it cannot. -/
def St.new (s : St V) (a : Nat) (v : V) : Option (St V) :=
  match s.mem a with
  | none => some { s with mem := upd s.mem a (some ⟨1, v⟩) }
  | some _ => none

/-- One operation; `none` if there is no such variable, the new variable is already a box, or the heap cannot return
`a`. -/
def step (a : Nat) (op : Op V) (s : St V) : Option (St V) :=
  match op with
  | .make i v =>
      match s.vars[i]? with
      | some none => (s.new a v).map fun s1 => { s1 with vars := s1.vars.set i (some a) }
      | _ => none
  | .copy i j =>
      match s.vars[i]?, s.vars[j]? with
      | some none, some (some p) => some { s.inc p with vars := s.vars.set i (some p) }
      | some none, some none => some { s with fault := true }
      | _, _ => none
  | .assign i j =>
      match s.vars[i]?, s.vars[j]? with
      | some x, some (some p) => some ({ s.inc p with vars := s.vars.set i (some p) }.drop x)
      | some _, some none => some { s with fault := true }
      | _, _ => none
  | .move i j =>
      match s.vars[i]?, s.vars[j]? with
      | some none, some y => some { s with vars := (s.vars.set i y).set j none }
      | _, _ => none
  | .massign i j =>
      match s.vars[i]?, s.vars[j]? with
      | some x, some y => some { s with vars := (s.vars.set i y).set j x }
      | _, _ => none
  | .destroy i =>
      match s.vars[i]? with
      | some x => some ({ s with vars := s.vars.set i none }.drop x)
      | none => none
  | .update i j f =>
      match s.vars[i]?, s.vars[j]? with
      | some none, some (some p) =>
          match s.mem p with
          | some c => (s.new a (f c.val)).map fun s1 => { s1 with vars := s1.vars.set i (some a) }
          | none => some { s with fault := true }
      | some none, some none => some { s with fault := true }
      | _, _ => none
  | .updateMove i f =>
      match s.vars[i]? with
      | some (some p) =>
          match s.mem p with
          | some c =>
              if c.rc = 1 then some { s with mem := upd s.mem p (some ⟨1, f c.val⟩) }
              else (s.new a (f c.val)).map fun s1 => { s1 with vars := s1.vars.set i (some a) }.drop (some p)
          | none => some { s with fault := true }
      | some none => some { s with fault := true }
      | none => none

def run : List (Nat × Op V) → St V → Option (St V)
  | [], s => some s
  | (a, op) :: rest, s => (step a op s).bind (run rest)

def specRun : List (Nat × Op V) → List (Option V) → Option (List (Option V))
  | [], e => some e
  | (_, op) :: rest, e => (spec op e).bind (specRun rest)

def init (n : Nat) : St V := ⟨fun _ => none, List.replicate n none, false⟩

/-! ### Refinement -/

/-- value of a variable -/
def get (m : Nat → Option (Holder V)) (x : Option Nat) : Option V := x.bind (valv m)

structure Rel (s : St V) (e : List (Option V)) : Prop where
  cnt : ∀ p, rcv s.mem p = s.vars.count (some p)
  pos : ∀ p c, s.mem p = some c → 0 < c.rc
  nofault : s.fault = false
  env : e = s.vars.map (get s.mem)

def oind (x : Option Nat) (p : Nat) : Nat := if x = some p then 1 else 0

theorem count_set : ∀ {l : List (Option Nat)} {i : Nat} {x : Option Nat} (y : Option Nat) (p : Nat), l[i]? = some x →
    (l.set i y).count (some p) + oind x p = l.count (some p) + oind y p
  | [], i, x, y, p, h => by simp at h
  | z :: zs, 0, x, y, p, h => by
    simp at h; subst h
    simp only [List.set_cons_zero, List.count_cons, oind, beq_iff_eq]; omega
  | z :: zs, i + 1, x, y, p, h => by
    have := count_set (l := zs) (i := i) y p (by simpa using h)
    simp only [List.set_cons_succ, List.count_cons]; omega

theorem oind_le {l : List (Option Nat)} {i : Nat} {x : Option Nat} (h : l[i]? = some x) (p : Nat) :
    oind x p ≤ l.count (some p) := by
  unfold oind
  split
  · rename_i he; subst he
    exact List.count_pos_iff.mpr (List.mem_of_getElem? h)
  · omega

theorem live {s : St V} {e : List (Option V)} (h : Rel s e) {i p : Nat} (hi : s.vars[i]? = some (some p)) :
    ∃ c, s.mem p = some c ∧ c.rc = s.vars.count (some p) ∧ 0 < c.rc := by
  have h1 := h.cnt p
  have h2 := oind_le hi p
  rw [oind, if_pos rfl] at h2
  cases hm : s.mem p with
  | none => simp [rcv, hm] at h1; omega
  | some c => exact ⟨c, rfl, by simpa [rcv, hm] using h1, h.pos p c hm⟩

/-- variable `i` changes from `x` to `y`, and the memory so that no other variable sees it -/
theorem set_rel {s s' : St V} {e : List (Option V)} {i : Nat} {x y : Option Nat} {v : Option V} (h : Rel s e)
    (hi : s.vars[i]? = some x) (hv : s'.vars = s.vars.set i y) (hf : s'.fault = s.fault)
    (hcnt : ∀ p, rcv s'.mem p + oind x p = rcv s.mem p + oind y p)
    (hpos : ∀ p c, s'.mem p = some c → 0 < c.rc)
    (hval : ∀ p, oind x p < s.vars.count (some p) → valv s'.mem p = valv s.mem p)
    (hy : get s'.mem y = v) : Rel s' (e.set i v) := by
  have hl : i < s.vars.length := by
    by_contra hc
    rw [List.getElem?_eq_none (by omega)] at hi; cases hi
  refine ⟨?_, hpos, by rw [hf]; exact h.nofault, ?_⟩
  · intro p
    have e1 := h.cnt p
    have e2 := hcnt p
    have e3 := count_set y p hi
    rw [hv]; omega
  · rw [hv, h.env, List.map_set, hy]
    apply List.ext_getElem?
    intro j
    by_cases hj : j = i
    · subst hj
      rw [List.getElem?_set_self (by simpa using hl), List.getElem?_set_self (by simpa using hl)]
    · rw [List.getElem?_set_ne (Ne.symm hj), List.getElem?_set_ne (Ne.symm hj), List.getElem?_map, List.getElem?_map]
      cases hz : s.vars[j]? with
      | none => rfl
      | some z =>
        cases z with
        | none => rfl
        | some p =>
          simp only [Option.map_some, get, Option.bind_some, Option.some.injEq]
          refine (hval p ?_).symm
          have e3 := count_set none p hi
          have e4 := oind_le (l := s.vars.set i none) (i := j) (x := some p)
            (by rw [List.getElem?_set_ne (Ne.symm hj)]; exact hz) p
          rw [oind, if_pos rfl] at e4
          have e5 : oind none p = 0 := rfl
          omega

theorem new_spec {s s1 : St V} {a : Nat} {v : V} (h : s.new a v = some s1) :
    s.mem a = none ∧ s1 = { s with mem := upd s.mem a (some ⟨1, v⟩) } := by
  unfold St.new at h
  cases hm : s.mem a with
  | none => rw [hm] at h; cases h; exact ⟨rfl, rfl⟩
  | some c => rw [hm] at h; cases h

/-- a box at a new address -/
theorem new_rel {s : St V} {e : List (Option V)} {i a : Nat} {v : V} (h : Rel s e) (hi : s.vars[i]? = some none)
    (ha : s.mem a = none) :
    Rel { s with mem := upd s.mem a (some ⟨1, v⟩), vars := s.vars.set i (some a) } (e.set i (some v)) := by
  have hz : s.vars.count (some a) = 0 := by rw [← h.cnt a]; simp [rcv, ha]
  refine set_rel h hi rfl rfl ?_ ?_ ?_ ?_
  · intro p
    simp only [rcv_upd]
    split
    · rename_i hp; subst hp; simp [oind, rcv, ha]
    · rename_i hp; simp [oind, Ne.symm hp]
  · intro p c hp
    simp only [upd] at hp
    split at hp
    · cases hp; simp
    · exact h.pos p c hp
  · intro p hp
    have : p ≠ a := by rintro rfl; omega
    simp only [valv_upd, if_neg this]
  · simp [get, valv_upd]

theorem env_get {s : St V} {e : List (Option V)} (h : Rel s e) (i : Nat) : e[i]? = (s.vars[i]?).map (get s.mem) := by
  rw [h.env, List.getElem?_map]

theorem map_get_none {x : Option (Option Nat)} {s : St V} {e : List (Option V)} {i : Nat} (h : Rel s e)
    (hx : x = s.vars[i]?) (hz : x.map (get s.mem) = some none) : x = some none := by
  cases x with
  | none => cases hz
  | some y =>
    cases y with
    | none => rfl
    | some p =>
      obtain ⟨c, hm, -⟩ := live h hx.symm
      simp [get, valv, hm] at hz

theorem map_get_some {x : Option (Option Nat)} {s : St V} {v : V} (hz : x.map (get s.mem) = some (some v)) :
    ∃ p c, x = some (some p) ∧ s.mem p = some c ∧ c.val = v := by
  cases x with
  | none => cases hz
  | some y =>
    cases y with
    | none => simp [get] at hz
    | some p =>
      cases hm : s.mem p with
      | none => simp [get, valv, hm] at hz
      | some c => exact ⟨p, c, rfl, hm, by simpa [get, valv, hm] using hz⟩

theorem step_rel {s s' : St V} {e e' : List (Option V)} {a : Nat} {op : Op V} (h : Rel s e)
    (hs : step a op s = some s') (he : spec op e = some e') : Rel s' e' := by
  cases op with
  | make i v =>
    simp only [spec, env_get h] at he
    split at he
    · rename_i h1
      cases he
      have h1 := map_get_none h rfl h1
      simp only [step, h1, Option.map_eq_some_iff] at hs
      obtain ⟨s1, hn, rfl⟩ := hs
      obtain ⟨ha, rfl⟩ := new_spec hn
      exact new_rel h h1 ha
    · cases he
  | copy i j =>
    simp only [spec, env_get h] at he
    split at he
    · rename_i v h1 h2
      cases he
      have h1 := map_get_none h rfl h1
      obtain ⟨p, c, h2, hm, hv⟩ := map_get_some h2
      simp only [step, h1, h2, Option.some.injEq] at hs
      subst hs
      have hinc : s.inc p = { s with mem := upd s.mem p (some { c with rc := c.rc + 1 }) } := by simp [St.inc, hm]
      rw [hinc]
      refine set_rel h h1 rfl rfl ?_ ?_ ?_ ?_
      · intro q
        simp only [rcv_upd]
        split
        · rename_i hq; subst hq; simp [oind, rcv, hm]
        · rename_i hq; simp [oind, Ne.symm hq]
      · intro q c' hq
        simp only [upd] at hq
        split at hq
        · cases hq; simp
        · exact h.pos q c' hq
      · intro q hq
        simp only [valv_upd]
        split
        · rename_i hq; subst hq; simp [valv, hm]
        · rfl
      · simp [get, valv_upd, hv]
    · cases he
  | assign i j =>
    simp only [spec, env_get h] at he
    split at he
    · rename_i x0 v h1 h2
      cases he
      obtain ⟨p, c, h2, hm, hv⟩ := map_get_some h2
      simp only [Option.map_eq_some_iff] at h1
      obtain ⟨x, h1, -⟩ := h1
      simp only [step, h1, h2, Option.some.injEq] at hs
      subst hs
      have hinc : s.inc p = { s with mem := upd s.mem p (some { c with rc := c.rc + 1 }) } := by simp [St.inc, hm]
      rw [hinc]
      have hpos := h.pos p c hm
      cases x with
      | none =>
        simp only [St.drop]
        refine set_rel h h1 rfl rfl ?_ ?_ ?_ ?_
        · intro q
          simp only [rcv_upd]
          split
          · rename_i hq; subst hq; simp [oind, rcv, hm]
          · rename_i hq; simp [oind, Ne.symm hq]
        · intro q c' hq
          simp only [upd] at hq
          split at hq
          · cases hq; simp
          · exact h.pos q c' hq
        · intro q hq
          simp only [valv_upd]
          split
          · rename_i hq; subst hq; simp [valv, hm]
          · rfl
        · simp [get, valv_upd, hv]
      | some r =>
        obtain ⟨cr, hmr, hcr, hcr0⟩ := live h h1
        by_cases hrp : r = p
        · subst hrp
          rw [hm] at hmr; cases hmr
          have hc1 : ¬ (c.rc + 1 = 1) := by omega
          have hm2 : (upd s.mem r (some { c with rc := c.rc + 1 })) r = some { c with rc := c.rc + 1 } := if_pos rfl
          simp only [St.drop, hm2, if_neg hc1, Nat.add_sub_cancel]
          refine set_rel h h1 rfl rfl ?_ ?_ ?_ ?_
          · intro q
            simp only [rcv_upd]
            split
            · rename_i hq; subst hq; simp [rcv, hm]
            · rfl
          · intro q c' hq
            simp only [upd] at hq
            split at hq
            · cases hq; exact hpos
            · exact h.pos q c' hq
          · intro q _
            simp only [valv_upd]
            split
            · rename_i hq; subst hq; simp [valv, hm]
            · rfl
          · simp [get, valv_upd, hv]
        · have hne : (upd s.mem p (some { c with rc := c.rc + 1 })) r = some cr := by
            simp only [upd, if_neg hrp]; exact hmr
          simp only [St.drop, hne]
          refine set_rel h h1 rfl rfl ?_ ?_ ?_ ?_
          · intro q
            simp only [rcv_upd]
            by_cases hq : q = r
            · subst hq
              simp only [if_true, oind, rcv, hmr, Option.some.injEq]
              rw [if_neg (Ne.symm hrp)]
              split <;> simp <;> omega
            · rw [if_neg hq]
              split
              · rename_i hq'; subst hq'; simp [oind, rcv, hm, hrp]
              · rename_i hq'; simp [oind, Ne.symm hq', Ne.symm hq]
          · intro q c' hq
            simp only [upd] at hq
            split at hq
            · split at hq
              · cases hq
              · cases hq; simp; omega
            · split at hq
              · cases hq; simp
              · exact h.pos q c' hq
          · intro q hq
            simp only [valv_upd]
            by_cases hqr : q = r
            · subst hqr
              have : ¬ cr.rc = 1 := by
                have : oind (some q) q = 1 := if_pos rfl
                omega
              simp [if_neg this, valv, hmr]
            · rw [if_neg hqr]
              split
              · rename_i hq; subst hq; simp [valv, hm]
              · rfl
          · simp [get, valv_upd, hv, Ne.symm hrp]
    · cases he
  | move i j =>
    simp only [spec, env_get h] at he
    split at he
    · rename_i y0 h1 h2
      cases he
      have h1 := map_get_none h rfl h1
      simp only [Option.map_eq_some_iff] at h2
      obtain ⟨y, h2, rfl⟩ := h2
      simp only [step, h1, h2, Option.some.injEq] at hs
      subst hs
      refine ⟨?_, h.pos, h.nofault, ?_⟩
      · intro p
        have e1 := h.cnt p
        have e2 := count_set y p h1
        by_cases hij : i = j
        · subst hij
          rw [h1] at h2; cases h2
          have e3 := count_set none p (l := s.vars.set i none) (i := i) (x := none) (by
            rw [List.getElem?_set_self (by by_contra hc; rw [List.getElem?_eq_none (by omega)] at h1; cases h1)])
          simp only; omega
        · have e3 := count_set none p (l := s.vars.set i y) (i := j) (x := y) (by
            rw [List.getElem?_set_ne hij]; exact h2)
          simp only; omega
      · simp only [h.env, List.map_set]; rfl
    · cases he
  | massign i j =>
    simp only [spec, env_get h] at he
    split at he
    · rename_i x0 y0 h1 h2
      cases he
      simp only [Option.map_eq_some_iff] at h1 h2
      obtain ⟨x, h1, rfl⟩ := h1
      obtain ⟨y, h2, rfl⟩ := h2
      simp only [step, h1, h2, Option.some.injEq] at hs
      subst hs
      refine ⟨?_, h.pos, h.nofault, ?_⟩
      · intro p
        have e1 := h.cnt p
        have e2 := count_set y p h1
        by_cases hij : i = j
        · subst hij
          rw [h1] at h2; cases h2
          have e3 := count_set x p (l := s.vars.set i x) (i := i) (x := x) (by
            rw [List.getElem?_set_self (by by_contra hc; rw [List.getElem?_eq_none (by omega)] at h1; cases h1)])
          simp only; omega
        · have e3 := count_set x p (l := s.vars.set i y) (i := j) (x := y) (by
            rw [List.getElem?_set_ne hij]; exact h2)
          simp only; omega
      · simp only [h.env, List.map_set]
    · cases he
  | destroy i =>
    simp only [spec, env_get h] at he
    split at he
    · rename_i x0 h1
      cases he
      simp only [Option.map_eq_some_iff] at h1
      obtain ⟨x, h1, -⟩ := h1
      simp only [step, h1, Option.some.injEq] at hs
      subst hs
      cases x with
      | none => exact set_rel h h1 rfl rfl (fun _ => rfl) h.pos (fun _ _ => rfl) rfl
      | some r =>
        obtain ⟨cr, hmr, hcr, hcr0⟩ := live h h1
        simp only [St.drop, hmr]
        refine set_rel h h1 rfl rfl ?_ ?_ ?_ rfl
        · intro q
          simp only [rcv_upd]
          by_cases hq : q = r
          · subst hq
            simp only [if_true, oind, rcv, hmr]
            split <;> simp <;> omega
          · rw [if_neg hq]; simp [oind, Ne.symm hq]
        · intro q c' hq
          simp only [upd] at hq
          split at hq
          · split at hq
            · cases hq
            · cases hq; simp; omega
          · exact h.pos q c' hq
        · intro q hq
          simp only [valv_upd]
          split
          · rename_i hq'; subst hq'
            have : ¬ cr.rc = 1 := by
              have : oind (some q) q = 1 := if_pos rfl
              omega
            simp [if_neg this, valv, hmr]
          · rfl
    · cases he
  | update i j f =>
    simp only [spec, env_get h] at he
    split at he
    · rename_i v h1 h2
      cases he
      have h1 := map_get_none h rfl h1
      obtain ⟨p, c, h2', hm, rfl⟩ := map_get_some h2
      simp only [step, h1, h2', hm, Option.map_eq_some_iff] at hs
      obtain ⟨s1, hn, rfl⟩ := hs
      obtain ⟨ha, rfl⟩ := new_spec hn
      exact new_rel h h1 ha
    · cases he
  | updateMove i f =>
    simp only [spec, env_get h] at he
    split at he
    · rename_i v h1
      cases he
      obtain ⟨p, c, h1', hm, rfl⟩ := map_get_some h1
      clear h1
      have h1 := h1'
      obtain ⟨c', hm', hc, hc0⟩ := live h h1
      rw [hm] at hm'; cases hm'
      simp only [step, h1, hm] at hs
      split at hs
      · rename_i hone
        cases hs
        refine set_rel (y := some p) h h1 (Conc.Atom.set_same h1).symm rfl ?_ ?_ ?_ ?_
        · intro q
          simp only [rcv_upd]
          split
          · rename_i hq; subst hq; simp [rcv, hm, hone]
          · rfl
        · intro q c' hq
          simp only [upd] at hq
          split at hq
          · cases hq; simp
          · exact h.pos q c' hq
        · intro q hq
          have hne : q ≠ p := by
            rintro rfl
            have : oind (some q) q = 1 := if_pos rfl
            omega
          simp only [valv_upd, if_neg hne]
        · simp [get, valv_upd]
      · rename_i hone
        simp only [Option.map_eq_some_iff] at hs
        obtain ⟨s1, hn, rfl⟩ := hs
        obtain ⟨ha, rfl⟩ := new_spec hn
        have hpa : p ≠ a := by rintro rfl; rw [ha] at hm; cases hm
        have hz : s.vars.count (some a) = 0 := by rw [← h.cnt a]; simp [rcv, ha]
        have hm2 : (upd s.mem a (some (⟨1, f c.val⟩ : Holder V))) p = some c := by
          simp only [upd, if_neg hpa]; exact hm
        simp only [St.drop, hm2, if_neg hone]
        refine set_rel h h1 rfl rfl ?_ ?_ ?_ ?_
        · intro q
          simp only [rcv_upd]
          by_cases hq : q = p
          · subst hq
            simp [oind, rcv, hm, Ne.symm hpa]; omega
          · rw [if_neg hq]
            split
            · rename_i hq'; subst hq'; simp [oind, rcv, ha, hpa]
            · rename_i hq'; simp [oind, Ne.symm hq', Ne.symm hq]
        · intro q c' hq
          simp only [upd] at hq
          split at hq
          · cases hq; simp; omega
          · split at hq
            · cases hq; simp
            · exact h.pos q c' hq
        · intro q hq
          simp only [valv_upd]
          by_cases hqp : q = p
          · subst hqp; simp [valv, hm]
          · have hne : q ≠ a := by rintro rfl; omega
            rw [if_neg hqp, if_neg hne]
        · simp [get, valv_upd, Ne.symm hpa]
    · cases he

theorem init_rel (n : Nat) : Rel (init n : St V) (List.replicate n none) := by
  refine ⟨fun p => ?_, fun _ _ h => (Option.some_ne_none _ h.symm).elim, rfl, ?_⟩
  · simp [init, rcv, List.count_replicate]
  · simp [init, get]

theorem run_rel : ∀ (ops : List (Nat × Op V)) {s s' : St V} {e e' : List (Option V)}, Rel s e →
    run ops s = some s' → specRun ops e = some e' → Rel s' e'
  | [], s, s', e, e', h, hr, he => by cases hr; cases he; exact h
  | (a, op) :: rest, s, s', e, e', h, hr, he => by
    simp only [run, specRun, Option.bind_eq_some_iff] at hr he
    obtain ⟨m, h1, h2⟩ := hr
    obtain ⟨em, h3, h4⟩ := he
    exact run_rel rest (step_rel h h1 h3) h2 h4

/-- C38: in any history of boxes that does not use boxes moved from, every box has the value it would have if each
variable had its own: no operation on one changes another. -/
theorem C38_values {n : Nat} {ops : List (Nat × Op V)} {s : St V} {e : List (Option V)}
    (h : run ops (init n) = some s) (he : specRun ops (List.replicate n none) = some e) :
    s.fault = false ∧ s.vars.map (get s.mem) = e := by
  have r := run_rel ops (init_rel n) h he
  exact ⟨r.nofault, r.env.symm⟩

/-- C38: holders live exactly as long as boxes refer to them, and their count is the number of these boxes. -/
theorem C38_memory {n : Nat} {ops : List (Nat × Op V)} {s : St V} {e : List (Option V)}
    (h : run ops (init n) = some s) (he : specRun ops (List.replicate n none) = some e) (p : Nat) :
    (s.mem p = none ↔ some p ∉ s.vars) ∧ ∀ c, s.mem p = some c → c.rc = s.vars.count (some p) := by
  have r := run_rel ops (init_rel n) h he
  have hc := r.cnt p
  cases hm : s.mem p with
  | none =>
    simp only [rcv, hm] at hc
    refine ⟨⟨fun _ hp => ?_, fun _ => rfl⟩, fun c h => by cases h⟩
    have := List.count_pos_iff.mpr hp
    simp at hc; omega
  | some c =>
    simp only [rcv, hm] at hc
    have hp := r.pos p c hm
    refine ⟨⟨fun h => (Option.some_ne_none _ h).elim, fun h => ?_⟩, fun c' h => by cases h; simpa using hc⟩
    exact absurd (List.count_pos_iff.mp (by simp at hc; omega)) h

/-- C38: `update` on an rvalue changes the holder in place exactly if no other box refers to it. -/
theorem C38_in_place {n : Nat} {ops : List (Nat × Op V)} {s s' : St V} {e : List (Option V)} {i a p : Nat} {f : V → V}
    (h : run ops (init n) = some s) (he : specRun ops (List.replicate n none) = some e)
    (hi : s.vars[i]? = some (some p)) (hs : step a (.updateMove i f) s = some s') :
    s'.vars = s.vars ↔ s.vars.count (some p) = 1 := by
  have r := run_rel ops (init_rel n) h he
  obtain ⟨c, hm, hc, hc0⟩ := live r hi
  simp only [step, hi, hm] at hs
  split at hs
  · cases hs; simp; omega
  · rename_i hone
    simp only [Option.map_eq_some_iff] at hs
    obtain ⟨s1, hn, rfl⟩ := hs
    obtain ⟨ha, rfl⟩ := new_spec hn
    have hpa : p ≠ a := by rintro rfl; rw [ha] at hm; cases hm
    have hm2 : (upd s.mem a (some (⟨1, f c.val⟩ : Holder V))) p = some c := by
      simp only [upd, if_neg hpa]; exact hm
    simp only [St.drop, hm2]
    constructor
    · intro hv
      have := congrArg (fun l => l[i]?) hv
      simp only [hi] at this
      rw [List.getElem?_set_self (by by_contra hcc; rw [List.getElem?_eq_none (by omega)] at hi; cases hi)] at this
      simp only [Option.some.injEq] at this
      exact absurd this.symm hpa
    · intro h1; omega

/-- the heap can always return an address: no history is blocked for lack of a choice of addresses that are not used -/
theorem C38_total {n : Nat} {ops : List (Nat × Op V)} {s : St V} {e e' : List (Option V)} {a : Nat} {op : Op V}
    (h : run ops (init n) = some s) (he : specRun ops (List.replicate n none) = some e)
    (ha : some a ∉ s.vars) (hop : spec op e = some e') : ∃ s', step a op s = some s' := by
  have hmem := ((C38_memory h he a).1).mpr ha
  have r := run_rel ops (init_rel n) h he
  have hnew : ∀ v, s.new a v = some { s with mem := upd s.mem a (some ⟨1, v⟩) } := fun v => by simp [St.new, hmem]
  cases op with
  | make i v =>
    simp only [spec, env_get r] at hop
    split at hop
    · rename_i h1
      simp [step, map_get_none r rfl h1, hnew]
    · cases hop
  | copy i j =>
    simp only [spec, env_get r] at hop
    split at hop
    · rename_i v h1 h2
      obtain ⟨p, c, h2, hm, hv⟩ := map_get_some h2
      simp [step, map_get_none r rfl h1, h2]
    · cases hop
  | assign i j =>
    simp only [spec, env_get r] at hop
    split at hop
    · rename_i x v h1 h2
      obtain ⟨p, c, h2, hm, hv⟩ := map_get_some h2
      simp only [Option.map_eq_some_iff] at h1
      obtain ⟨x, h1, -⟩ := h1
      simp [step, h1, h2]
    · cases hop
  | move i j =>
    simp only [spec, env_get r] at hop
    split at hop
    · rename_i v h1 h2
      simp only [Option.map_eq_some_iff] at h2
      obtain ⟨x, h2, -⟩ := h2
      simp [step, map_get_none r rfl h1, h2]
    · cases hop
  | massign i j =>
    simp only [spec, env_get r] at hop
    split at hop
    · rename_i v w h1 h2
      simp only [Option.map_eq_some_iff] at h1 h2
      obtain ⟨y, h1, -⟩ := h1
      obtain ⟨x, h2, -⟩ := h2
      simp [step, h1, h2]
    · cases hop
  | destroy i =>
    simp only [spec, env_get r] at hop
    split at hop
    · rename_i v h1
      simp only [Option.map_eq_some_iff] at h1
      obtain ⟨y, h1, -⟩ := h1
      simp [step, h1]
    · cases hop
  | update i j f =>
    simp only [spec, env_get r] at hop
    split at hop
    · rename_i v h1 h2
      obtain ⟨p, c, h2, hm, hv⟩ := map_get_some h2
      simp [step, map_get_none r rfl h1, h2, hm, hnew]
    · cases hop
  | updateMove i f =>
    simp only [spec, env_get r] at hop
    split at hop
    · rename_i v h1
      obtain ⟨p, c, h1, hm, hv⟩ := map_get_some h1
      simp only [step, h1, hm, hnew]
      split <;> simp
    · cases hop

/-! ### Comparison -/

/-- `operator==` (167-171) -/
def eq (veq : V → V → Bool) (m : Nat → Option (Holder V)) (p q : Nat) : Option Bool :=
  if p = q then some true else
    match m p, m q with
    | some a, some b => some (veq a.val b.val)
    | _, _ => none

/-- `operator!=` (172-176), with the element's own `!=` -/
def ne (vne : V → V → Bool) (m : Nat → Option (Holder V)) (p q : Nat) : Option Bool :=
  if p = q then some false else
    match m p, m q with
    | some a, some b => some (vne a.val b.val)
    | _, _ => none

/-- `operator<` (177-181) -/
def lt (vlt : V → V → Bool) (m : Nat → Option (Holder V)) (p q : Nat) : Option Bool :=
  if p = q then some false else
    match m p, m q with
    | some a, some b => some (vlt a.val b.val)
    | _, _ => none

/-- C38: the comparisons of two boxes are those of their contents, whether they share them or not, if the element's
`==` is reflexive and its `!=` and `<` are irreflexive. -/
theorem C38_compare {n : Nat} {ops : List (Nat × Op V)} {s : St V} {e : List (Option V)}
    (h : run ops (init n) = some s) (he : specRun ops (List.replicate n none) = some e)
    {veq vne vlt : V → V → Bool} (h1 : ∀ x, veq x x = true) (h2 : ∀ x, vne x x = false) (h3 : ∀ x, vlt x x = false)
    {i j p q : Nat} (hi : s.vars[i]? = some (some p)) (hj : s.vars[j]? = some (some q)) :
    ∃ x y, e[i]? = some (some x) ∧ e[j]? = some (some y) ∧ eq veq s.mem p q = some (veq x y) ∧
      ne vne s.mem p q = some (vne x y) ∧ lt vlt s.mem p q = some (vlt x y) := by
  have r := run_rel ops (init_rel n) h he
  obtain ⟨c, hm, -⟩ := live r hi
  obtain ⟨d, hn, -⟩ := live r hj
  refine ⟨c.val, d.val, by simp [env_get r, hi, get, valv, hm], by simp [env_get r, hj, get, valv, hn], ?_, ?_, ?_⟩
  · unfold eq; split
    · rename_i hpq; subst hpq; rw [hm] at hn; cases hn; rw [h1]
    · simp [hm, hn]
  · unfold ne; split
    · rename_i hpq; subst hpq; rw [hm] at hn; cases hn; rw [h2]
    · simp [hm, hn]
  · unfold lt; split
    · rename_i hpq; subst hpq; rw [hm] at hn; cases hn; rw [h3]
    · simp [hm, hn]

/-- sharing, update of a shared box as an rvalue (a new holder), then of a unique one (in place), moves -/
def demo : List (Nat × Op Nat) :=
  [(7, .make 0 5), (0, .copy 1 0), (8, .updateMove 0 (· + 1)), (0, .updateMove 0 (· * 2)), (0, .assign 2 0), (9, .update 3 1 (· + 10)),
   (0, .massign 1 3), (0, .destroy 3), (0, .move 3 2)]

example : (run demo (init 4)).map (fun s => (s.vars, s.vars.map (get s.mem), s.fault)) =
    some ([some 8, some 9, none, some 8], [some 12, some 15, none, some 12], false) := by decide

example : specRun demo (List.replicate 4 none) = some [some 12, some 15, none, some 12] := by decide

/-- using a box that was moved from -/
example : (run [(7, .make 0 5), (0, .move 1 0), (0, .copy 2 0)] (init 3 : St Nat)).map (·.fault) = some true := by decide

end Box
