import Verif.Array.GcSpec
import Verif.Array.GcNode

/-!
# Arrays and transients under a garbage collector: the invariant
-/

namespace ArrGc

variable {α : Type}

theorem nth_set {β : Type} {l : List (Option β)} {i j : Nat} {v : Option β} (h : i < l.length) :
    nth (l.set i v) j = if j = i then v else nth l j := by
  unfold nth
  rw [List.getElem?_set]
  by_cases hj : i = j
  · subst hj; simp [h]
  · rw [if_neg hj, if_neg (fun h => hj h.symm)]

theorem nth_append {β : Type} {l : List (Option β)} {j : Nat} {v : Option β} : nth (l ++ [v]) j = if j = l.length then v else nth l j := by
  unfold nth
  by_cases hj : j = l.length
  · subst hj; simp
  · rw [if_neg hj]
    by_cases h : j < l.length
    · rw [List.getElem?_append_left h]
    · rw [List.getElem?_eq_none (by simp; omega), List.getElem?_eq_none (by omega)]

theorem nth_lt {β : Type} {l : List (Option β)} {i : Nat} {o : β} (h : nth l i = some o) : i < l.length := by
  by_contra hc
  unfold nth at h
  rw [List.getElem?_eq_none (by omega)] at h
  cases h

/-- an object holds a value -/
def Rep (triv : Bool) (m : Mem α) (next : Nat) : Option Obj → Option (Val α) → Prop
  | none, none => True
  | some (.arr x), some (.arr xs) => x.size = xs.length ∧ ∃ c, m x.ptr = some c ∧ c.slots = xs.map some
  | some (.tr t), some (.tr xs) => 0 < t.tok ∧ t.tok < next ∧ ∃ c, m t.ptr = some c ∧ Holds triv c t xs
  | some (.tr _), some .gone => True
  | _, _ => False

/-- The invariant.  No two transients in use have the same token, and the node of a variable has the token of no other transient
in use. -/
structure Inv (triv : Bool) (ea ew : Nat) (m : Mem α) (vs : List (Option Obj)) (e : Env α) (next : Nat) : Prop where
  len : vs.length = e.length
  rep : ∀ i, Rep triv m next (nth vs i) (nth e i)
  toks : ∀ i j t u xs ys, i ≠ j → nth vs i = some (.tr t) → nth e i = some (.tr xs) → nth vs j = some (.tr u) → nth e j = some (.tr ys) →
    t.tok ≠ u.tok
  sep : ∀ i j t xs o v c, i ≠ j → nth vs i = some (.tr t) → nth e i = some (.tr xs) → nth vs j = some o → nth e j = some v → v ≠ .gone →
    m o.ptr = some c → c.tok ≠ t.tok
  cells : ∀ p c, m p = some c → c.tok < next
  statA : m ea = some ⟨0, []⟩
  statW : m ew = some ⟨0, [none]⟩
  pos : 0 < next

section
variable {triv : Bool} {ea ew : Nat} {m m' : Mem α} {vs vs' : List (Option Obj)} {e e' : Env α} {next next' i : Nat}

theorem rep_frame {o : Option Obj} {v : Option (Val α)} (h : Rep triv m next o v) (hn : next ≤ next')
    (hm : ∀ o', o = some o' → v ≠ some .gone → m' o'.ptr = m o'.ptr) : Rep triv m' next' o v := by
  match o, v, h with
  | none, none, _ => trivial
  | some (.tr _), some .gone, _ => trivial
  | some (.arr x), some (.arr xs), h =>
    obtain ⟨h1, c, h2, h3⟩ := h
    exact ⟨h1, c, by rw [← h2]; exact hm _ rfl (by simp), h3⟩
  | some (.tr x), some (.tr xs), h =>
    obtain ⟨h1, h1', c, h2, h3⟩ := h
    exact ⟨h1, by omega, c, by rw [← h2]; exact hm _ rfl (by simp), h3⟩

/-- one variable and memory that no other uses change -/
theorem Inv.put (hi : Inv triv ea ew m vs e next) {o : Option Obj} {v : Option (Val α)} (hl : vs'.length = e'.length)
    (hv : ∀ j, j ≠ i → nth vs' j = nth vs j) (he : ∀ j, j ≠ i → nth e' j = nth e j) (hvi : nth vs' i = o) (hei : nth e' i = v)
    (hm : ∀ j o w, j ≠ i → nth vs j = some o → nth e j = some w → w ≠ .gone → m' o.ptr = m o.ptr)
    (hn : next ≤ next') (hc : ∀ p c, m' p = some c → c.tok < next') (hA : m' ea = m ea) (hW : m' ew = m ew)
    (hr : Rep triv m' next' o v)
    (h1 : ∀ t xs, o = some (.tr t) → v = some (.tr xs) → ∀ j u ys, j ≠ i → nth vs j = some (.tr u) → nth e j = some (.tr ys) → t.tok ≠ u.tok)
    (h2 : ∀ t xs, o = some (.tr t) → v = some (.tr xs) → ∀ j o w c, j ≠ i → nth vs j = some o → nth e j = some w → w ≠ .gone →
      m o.ptr = some c → c.tok ≠ t.tok)
    (h3 : ∀ o' w c, o = some o' → v = some w → w ≠ .gone → m' o'.ptr = some c → ∀ j u ys, j ≠ i → nth vs j = some (.tr u) →
      nth e j = some (.tr ys) → c.tok ≠ u.tok) : Inv triv ea ew m' vs' e' next' := by
  refine ⟨hl, fun j => ?_, ?_, ?_, hc, hA.trans hi.statA, hW.trans hi.statW, Nat.lt_of_lt_of_le hi.pos hn⟩
  · by_cases hj : j = i
    · rw [hj, hvi, hei]; exact hr
    · rw [hv j hj, he j hj]
      refine rep_frame (hi.rep j) hn fun o' ho hg => ?_
      cases hw : nth e j with
      | none =>
        have := hi.rep j
        rw [ho, hw] at this
        cases o' <;> exact this.elim
      | some w => exact hm j o' w hj ho hw (by intro h; rw [hw, h] at hg; exact hg rfl)
  · intro j k t u xs ys hjk
    by_cases hj : j = i
    · have hk : k ≠ i := fun h => hjk (hj.trans h.symm)
      rw [hj, hvi, hei, hv k hk, he k hk]
      intro a b c d
      exact h1 t xs a b k u ys hk c d
    · by_cases hk : k = i
      · rw [hk, hvi, hei, hv j hj, he j hj]
        intro a b c d h
        exact h1 u ys c d j t xs hj a b h.symm
      · rw [hv j hj, he j hj, hv k hk, he k hk]
        exact hi.toks j k t u xs ys hjk
  · intro j k t xs o' w c hjk
    by_cases hj : j = i
    · have hk : k ≠ i := fun h => hjk (hj.trans h.symm)
      rw [hj, hvi, hei, hv k hk, he k hk]
      intro a b c' d hg hp
      rw [hm k o' w hk c' d hg] at hp
      exact h2 t xs a b k o' w c hk c' d hg hp
    · by_cases hk : k = i
      · rw [hk, hvi, hei, hv j hj, he j hj]
        intro a b c' d hg hp
        exact h3 o' w c c' d hg hp j t xs hj a b
      · rw [hv j hj, he j hj, hv k hk, he k hk]
        intro a b c' d hg hp
        rw [hm k o' w hk c' d hg] at hp
        exact hi.sep j k t xs o' w c hjk a b c' d hg hp

/-- a variable that is used points to memory -/
theorem Inv.node (hi : Inv triv ea ew m vs e next) {j : Nat} {o : Obj} {w : Val α} (h1 : nth vs j = some o) (h2 : nth e j = some w) (h3 : w ≠ .gone) :
    ∃ c, m o.ptr = some c := by
  have := hi.rep j
  rw [h1, h2] at this
  match o, w, this with
  | .arr x, .arr xs, h => exact ⟨_, h.2.choose_spec.1⟩
  | .tr x, .tr xs, h => exact ⟨_, h.2.2.choose_spec.1⟩
  | .tr x, .gone, h => exact absurd rfl h3

/-- free memory is not used -/
theorem Inv.free (hi : Inv triv ea ew m vs e next) {a : Nat} (ha : m a = none) (c : Option (Cell α)) :
    (∀ j o w, nth vs j = some o → nth e j = some w → w ≠ .gone → upd m a c o.ptr = m o.ptr) ∧ upd m a c ea = m ea ∧ upd m a c ew = m ew := by
  refine ⟨fun j o w h1 h2 h3 => upd_ne fun h => ?_, upd_ne fun h => ?_, upd_ne fun h => ?_⟩
  · obtain ⟨d, hd⟩ := hi.node h1 h2 h3
    rw [h, ha] at hd; cases hd
  · have := hi.statA; rw [h, ha] at this; cases this
  · have := hi.statW; rw [h, ha] at this; cases this

theorem Inv.tokPos (hi : Inv triv ea ew m vs e next) {j : Nat} {u : Tr} {ys : List α} (h1 : nth vs j = some (.tr u)) (h2 : nth e j = some (.tr ys)) :
    0 < u.tok ∧ u.tok < next := by
  have := hi.rep j
  rw [h1, h2] at this
  exact ⟨this.1, this.2.1⟩

theorem cells_upd {a : Nat} {c : Cell α} (h : ∀ p c, m p = some c → c.tok < next) (hn : next ≤ next') (hc : c.tok < next') :
    ∀ p d, upd m a (some c) p = some d → d.tok < next' := by
  intro p d hd
  by_cases hp : p = a
  · rw [hp, upd_self] at hd; cases hd; exact hc
  · rw [upd_ne hp] at hd; have := h p d hd; omega

/-- a new variable: an array in a new node -/
theorem Inv.newA (hi : Inv triv ea ew m vs e next) {a : Nat} {ys : List α} {r : A} (ha : m a = none) (h : NewA m a ys m' r) :
    Inv triv ea ew m' (vs ++ [some (.arr r)]) (e ++ [some (.arr ys)]) next := by
  obtain ⟨rfl, rfl⟩ := h
  obtain ⟨f1, f2, f3⟩ := hi.free ha (some ⟨0, ys.map some⟩)
  refine hi.put (i := vs.length) (o := some (.arr ⟨a, ys.length⟩)) (v := some (.arr ys)) (by simp [hi.len]) (fun j hj => by rw [nth_append, if_neg hj])
    (fun j hj => by rw [nth_append, ← hi.len, if_neg hj]) (by rw [nth_append, if_pos rfl]) (by rw [nth_append, ← hi.len, if_pos rfl])
    (fun j o w _ => f1 j o w) (Nat.le_refl _) (cells_upd hi.cells (Nat.le_refl _) hi.pos) f2 f3 ⟨rfl, _, upd_self, rfl⟩ ?_ ?_ ?_
  · rintro t xs ⟨⟩
  · rintro t xs ⟨⟩
  · rintro _ w c ⟨rfl⟩ _ _ hc j u zs _ hu hz
    rw [show (Obj.arr ⟨a, ys.length⟩).ptr = a from rfl, upd_self] at hc
    cases hc
    exact fun h => by have := (hi.tokPos hu hz).1; simp only at h; omega

/-- a variable becomes an array in a node that is there already -/
theorem Inv.putA (hi : Inv triv ea ew m vs e next) {x : A} {ys : List α} {c : Cell α} (hl : vs'.length = e'.length)
    (hv : ∀ j, j ≠ i → nth vs' j = nth vs j) (he : ∀ j, j ≠ i → nth e' j = nth e j) (hvi : nth vs' i = some (.arr x)) (hei : nth e' i = some (.arr ys))
    (hx : x.size = ys.length) (hc : m x.ptr = some c) (hs : c.slots = ys.map some)
    (ht : ∀ j u ys, j ≠ i → nth vs j = some (.tr u) → nth e j = some (.tr ys) → c.tok ≠ u.tok) : Inv triv ea ew m vs' e' next := by
  refine hi.put (m' := m) hl hv he hvi hei (fun _ _ _ _ _ _ _ => rfl) (Nat.le_refl _) hi.cells rfl rfl ⟨hx, c, hc, hs⟩ ?_ ?_ ?_
  · rintro t xs ⟨⟩
  · rintro t xs ⟨⟩
  · rintro _ w d ⟨rfl⟩ _ _ hd j u zs hj hu hz
    have hd : m x.ptr = some d := hd
    rw [hc] at hd; cases hd
    exact ht j u zs hj hu hz

/-- a variable becomes a transient with a token that no other has, in a node that is there already -/
theorem Inv.putT (hi : Inv triv ea ew m vs e next) {t : Tr} {ys : List α} {c : Cell α} (hl : vs'.length = e'.length)
    (hv : ∀ j, j ≠ i → nth vs' j = nth vs j) (he : ∀ j, j ≠ i → nth e' j = nth e j) (hvi : nth vs' i = some (.tr t)) (hei : nth e' i = some (.tr ys))
    (hn : next ≤ next') (h0 : 0 < t.tok) (h1 : t.tok < next') (hc : m t.ptr = some c) (hs : Holds triv c t ys)
    (ht : ∀ j u ys, j ≠ i → nth vs j = some (.tr u) → nth e j = some (.tr ys) → t.tok ≠ u.tok ∧ c.tok ≠ u.tok)
    (hd : ∀ j o w d, j ≠ i → nth vs j = some o → nth e j = some w → w ≠ .gone → m o.ptr = some d → d.tok ≠ t.tok) :
    Inv triv ea ew m vs' e' next' := by
  refine hi.put (m' := m) hl hv he hvi hei (fun _ _ _ _ _ _ _ => rfl) hn (fun p d h => Nat.lt_of_lt_of_le (hi.cells p d h) hn) rfl rfl
    ⟨h0, h1, c, hc, hs⟩ ?_ ?_ ?_
  · rintro _ xs ⟨rfl⟩ _ j u zs hj hu hz
    exact (ht j u zs hj hu hz).1
  · rintro _ xs ⟨rfl⟩ _ j o w d hj ho hw hg hp
    exact hd j o w d hj ho hw hg hp
  · rintro _ w d ⟨rfl⟩ _ _ hp j u zs hj hu hz
    have hp : m t.ptr = some d := hp
    rw [hc] at hp; cases hp
    exact (ht j u zs hj hu hz).2

/-- the same with a new token: nobody has it -/
theorem Inv.putNew (hi : Inv triv ea ew m vs e next) {t : Tr} {ys : List α} {c : Cell α} (hl : vs'.length = e'.length)
    (hv : ∀ j, j ≠ i → nth vs' j = nth vs j) (he : ∀ j, j ≠ i → nth e' j = nth e j) (hvi : nth vs' i = some (.tr t)) (hei : nth e' i = some (.tr ys))
    (hn : next ≤ t.tok) (hn' : t.tok < next') (hc : m t.ptr = some c) (hs : Holds triv c t ys)
    (ht : ∀ j u ys, j ≠ i → nth vs j = some (.tr u) → nth e j = some (.tr ys) → c.tok ≠ u.tok) : Inv triv ea ew m vs' e' next' := by
  refine hi.putT hl hv he hvi hei (by omega) (by have := hi.pos; omega) hn' hc hs (fun j u zs hj hu hz => ⟨?_, ht j u zs hj hu hz⟩) ?_
  · have := (hi.tokPos hu hz).2; omega
  · intro j o w d _ _ _ _ hp
    have := hi.cells _ _ hp; omega

/-- a variable is destroyed or moved from -/
theorem Inv.drop (hi : Inv triv ea ew m vs e next) {o : Option Obj} {v : Option (Val α)} (hl : vs'.length = e'.length)
    (hv : ∀ j, j ≠ i → nth vs' j = nth vs j) (he : ∀ j, j ≠ i → nth e' j = nth e j) (hvi : nth vs' i = o) (hei : nth e' i = v)
    (hr : Rep triv m next o v) (hg : v = none ∨ v = some .gone) : Inv triv ea ew m vs' e' next := by
  refine hi.put (m' := m) hl hv he hvi hei (fun _ _ _ _ _ _ _ => rfl) (Nat.le_refl _) hi.cells rfl rfl hr ?_ ?_ ?_
  · rintro t xs _ h
    rcases hg with h1 | h1 <;> rw [h1] at h <;> cases h
  · rintro t xs _ h
    rcases hg with h1 | h1 <;> rw [h1] at h <;> cases h
  · rintro o' w c _ h hw
    rcases hg with h1 | h1 <;> rw [h1] at h <;> cases h
    exact absurd rfl hw

/-- an operation on a transient -/
theorem Inv.upd (hi : Inv triv ea ew m vs e next) {a : Nat} {t t' : Tr} {xs ys : List α} (ha : m a = none) (h1 : nth vs i = some (.tr t))
    (h2 : nth e i = some (.tr xs)) (h : Upd triv m a t ys m' t') : Inv triv ea ew m' (vs.set i (some (.tr t'))) (e.set i (some (.tr ys))) next := by
  obtain ⟨ht, c', rfl, hc, hp, hh⟩ := h
  have hlv := nth_lt h1
  have hle := nth_lt h2
  obtain ⟨p0, p1⟩ := hi.tokPos h1 h2
  have hct : c'.tok < next := by rcases hc with h | h <;> omega
  have hf : (∀ j o w, j ≠ i → nth vs j = some o → nth e j = some w → w ≠ .gone → ArrGc.upd m t'.ptr (some c') o.ptr = m o.ptr) ∧
      ArrGc.upd m t'.ptr (some c') ea = m ea ∧ ArrGc.upd m t'.ptr (some c') ew = m ew := by
    rcases hp with hp | ⟨hp, c, hm, hk⟩
    · rw [hp]
      obtain ⟨f1, f2, f3⟩ := hi.free ha (some c')
      exact ⟨fun j o w _ => f1 j o w, f2, f3⟩
    · rw [hp]
      refine ⟨fun j o w hj ho hw hg => upd_ne fun he => ?_, upd_ne fun he => ?_, upd_ne fun he => ?_⟩
      · exact hi.sep i j t xs o w c (Ne.symm hj) h1 h2 ho hw hg (by rw [he]; exact hm) hk
      · have := hi.statA; rw [he, hm] at this; cases this; simp only at hk; omega
      · have := hi.statW; rw [he, hm] at this; cases this; simp only at hk; omega
  refine hi.put (i := i) (o := some (.tr t')) (v := some (.tr ys)) (by simp [hi.len]) (fun j hj => by rw [nth_set hlv, if_neg hj])
    (fun j hj => by rw [nth_set hle, if_neg hj]) (by rw [nth_set hlv, if_pos rfl]) (by rw [nth_set hle, if_pos rfl]) hf.1
    (Nat.le_refl _) (cells_upd hi.cells (Nat.le_refl _) hct) hf.2.1 hf.2.2 ⟨by omega, by omega, c', upd_self, hh⟩ ?_ ?_ ?_
  · rintro _ _ ⟨rfl⟩ _ j u zs hj hu hz
    rw [ht]; exact hi.toks i j t u xs zs (Ne.symm hj) h1 h2 hu hz
  · rintro _ _ ⟨rfl⟩ _ j o w c hj ho hw hg hcell
    rw [ht]; exact hi.sep i j t xs o w c (Ne.symm hj) h1 h2 ho hw hg hcell
  · rintro _ w d ⟨rfl⟩ _ _ hd j u zs hj hu hz
    rw [show (Obj.tr t').ptr = t'.ptr from rfl, upd_self] at hd
    cases hd
    rcases hc with h | h
    · rw [h]; exact hi.toks i j t u xs zs (Ne.symm hj) h1 h2 hu hz
    · have := (hi.tokPos hu hz).1; omega

/-- the collector -/
theorem Inv.collect (hi : Inv triv ea ew m vs e next) {p : Nat} (hA : p ≠ ea) (hW : p ≠ ew) (hp : ∀ o ∈ vs, o.map Obj.ptr ≠ some p) :
    Inv triv ea ew (ArrGc.upd m p none) vs e next := by
  have hne : ∀ j o, nth vs j = some o → ArrGc.upd m p none o.ptr = m o.ptr := by
    intro j o h
    refine upd_ne fun hq => ?_
    unfold nth at h
    cases hj : vs[j]? with
    | none => rw [hj] at h; cases h
    | some x =>
      rw [hj] at h
      have hx : x = some o := h
      exact hp x (List.mem_of_getElem? hj) (by rw [hx]; simp [hq])
  refine ⟨hi.len, fun j => rep_frame (hi.rep j) (Nat.le_refl _) fun o' ho _ => hne j o' ho, hi.toks, ?_, ?_, ?_, ?_, hi.pos⟩
  · intro j k t xs o w c hjk a b c' d hg hc
    rw [hne k o c'] at hc
    exact hi.sep j k t xs o w c hjk a b c' d hg hc
  · intro q c hq
    by_cases h : q = p
    · rw [h, upd_self] at hq; cases hq
    · rw [upd_ne h] at hq; exact hi.cells q c hq
  · rw [upd_ne (Ne.symm hA)]; exact hi.statA
  · rw [upd_ne (Ne.symm hW)]; exact hi.statW

end

end ArrGc
