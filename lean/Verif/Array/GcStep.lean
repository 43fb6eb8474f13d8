import Verif.Array.GcInv

/-!
# Arrays and transients under a garbage collector: every operation keeps the invariant
-/

namespace ArrGc

variable {α β : Type} {triv : Bool} {mv : α → α} {ea ew a : Nat} {f : Option Nat} {s : St α} {e e' : Env α}

/-- the state agrees with `e` -/
abbrev InvS (triv : Bool) (ea ew : Nat) (s : St α) (e : Env α) : Prop := Inv triv ea ew s.mem s.vars e s.next

/-- the outcome of an operation is the right one -/
def Good (triv : Bool) (mv : α → α) (ea ew : Nat) (f : Option Nat) (op : Op α) (e e' : Env α) : Done α → Prop
  | .ok s' => InvS triv ea ew s' e'
  | .thrown s' => f ≠ none ∧ ∃ e'', specThrow mv op e e'' ∧ InvS triv ea ew s' e''
  | .ub => False
  | .no => ∃ p, op = .collect p

theorem run_good {op : Op α} {x : M α β} {k : Mem α → β → St α} {Q : Mem α → β → Prop} {E : Mem α → Prop} (h : Out f (x s.mem f) Q E)
    (hq : ∀ m b, Q m b → InvS triv ea ew (k m b) e')
    (he : ∀ m, E m → ∃ e'', specThrow mv op e e'' ∧ InvS triv ea ew { s with mem := m } e'') :
    Good triv mv ea ew f op e e' (s.run f x k) := by
  unfold St.run
  cases hx : x s.mem f with
  | ok m f' b => rw [hx] at h; exact hq m b h.1
  | thrown m f' => rw [hx] at h; exact ⟨h.2, he m h.1⟩
  | ub => rw [hx] at h; exact h

theorem run_same {op : Op α} {x : M α β} {k : Mem α → β → St α} {Q : Mem α → β → Prop} (hi : InvS triv ea ew s e)
    (h : Out f (x s.mem f) Q (fun m => m = s.mem)) (hq : ∀ m b, Q m b → InvS triv ea ew (k m b) e') :
    Good triv mv ea ew f op e e' (s.run f x k) :=
  run_good h hq (by rintro _ rfl; exact ⟨e, .inl rfl, hi⟩)

section
variable (hi : InvS triv ea ew s e) {i : Nat}
include hi

/-- what kind of object a variable is -/
theorem obj_arr {xs : List α} (h : nth e i = some (.arr xs)) : ∃ x c, s.obj i = some (.arr x) ∧ x.size = xs.length ∧ s.mem x.ptr = some c ∧ c.slots = xs.map some := by
  have hr := hi.rep i
  rw [h] at hr
  unfold St.obj
  match ho : nth s.vars i with
  | none => rw [ho] at hr; exact hr.elim
  | some (.tr t) => rw [ho] at hr; exact hr.elim
  | some (.arr x) =>
    rw [ho] at hr
    obtain ⟨h1, c, h2, h3⟩ := hr
    exact ⟨x, c, ho, h1, h2, h3⟩

theorem obj_tr {xs : List α} (h : nth e i = some (.tr xs)) : ∃ t c, s.obj i = some (.tr t) ∧ s.mem t.ptr = some c ∧ Holds triv c t xs := by
  have hr := hi.rep i
  rw [h] at hr
  unfold St.obj
  match ho : nth s.vars i with
  | none => rw [ho] at hr; exact hr.elim
  | some (.arr t) => rw [ho] at hr; exact hr.elim
  | some (.tr x) =>
    rw [ho] at hr
    obtain ⟨_, _, c, h2, h3⟩ := hr
    exact ⟨x, c, ho, h2, h3⟩

theorem obj_gone (h : nth e i = some .gone) : ∃ t, s.obj i = some (.tr t) := by
  have hr := hi.rep i
  rw [h] at hr
  unfold St.obj
  match ho : nth s.vars i with
  | none => rw [ho] at hr; exact hr.elim
  | some (.arr t) => rw [ho] at hr; exact hr.elim
  | some (.tr x) => exact ⟨x, ho⟩

/-- the node of an array has the token of no transient in use -/
theorem arr_sep {x : A} {xs : List α} {c : Cell α} (h1 : s.obj i = some (.arr x)) (h2 : nth e i = some (.arr xs)) (hc : s.mem x.ptr = some c)
    (j : Nat) (u : Tr) (ys : List α) (hu : nth s.vars j = some (.tr u)) (hy : nth e j = some (.tr ys)) : c.tok ≠ u.tok := by
  refine hi.sep j i u ys (.arr x) (.arr xs) c ?_ hu hy h1 h2 (by simp) hc
  rintro rfl
  rw [h2] at hy; cases hy

/-- a transient gets a new token -/
theorem renew {t : Tr} {xs : List α} {k n : Nat} (h1 : nth s.vars i = some (.tr t)) (h2 : nth e i = some (.tr xs)) (hk : s.next ≤ k) (hn : k < n) :
    Inv triv ea ew s.mem (s.vars.set i (some (.tr { t with tok := k }))) e n := by
  have hlv := nth_lt h1
  obtain ⟨t', c, h3, h4, h5⟩ := obj_tr hi h2
  cases h3.symm.trans h1
  have hc := hi.cells _ _ h4
  obtain ⟨rest, hs, _⟩ := h5.slots
  refine hi.putNew (i := i) (c := c) (t := { t with tok := k }) (by simp [hi.len]) (fun j hj => by rw [nth_set hlv, if_neg hj]) (fun _ _ => rfl) (by rw [nth_set hlv, if_pos rfl]) h2
    hk hn h4 ⟨h5.size, h5.cap, rest, hs, fun h => absurd h (by show c.tok ≠ k; omega)⟩ fun j u zs hj hu hz => ?_
  exact hi.sep j i u zs (.tr t) (.tr xs) c hj hu hz h1 h2 (by simp) h4

end

section
variable (hi : InvS triv ea ew s e)
include hi

theorem append_inv {o : Obj} {v : Val α} {m : Mem α} {n : Nat}
    (h : ∀ vs' e', vs'.length = e'.length → (∀ j, j ≠ s.vars.length → nth vs' j = nth s.vars j) → (∀ j, j ≠ s.vars.length → nth e' j = nth e j) →
      nth vs' s.vars.length = some o → nth e' s.vars.length = some v → Inv triv ea ew m vs' e' n) :
    Inv triv ea ew m (s.vars ++ [some o]) (e ++ [some v]) n :=
  h _ _ (by simp [hi.len]) (fun j hj => by rw [nth_append, if_neg hj]) (fun j hj => by rw [nth_append, ← hi.len, if_neg hj])
    (by rw [nth_append, if_pos rfl]) (by rw [nth_append, ← hi.len, if_pos rfl])

theorem set_inv {i : Nat} {o : Option Obj} {v : Option (Val α)} {m : Mem α} {n : Nat} (hl : i < s.vars.length)
    (h : ∀ vs' e', vs'.length = e'.length → (∀ j, j ≠ i → nth vs' j = nth s.vars j) → (∀ j, j ≠ i → nth e' j = nth e j) →
      nth vs' i = o → nth e' i = v → Inv triv ea ew m vs' e' n) :
    Inv triv ea ew m (s.vars.set i o) (e.set i v) n :=
  h _ _ (by simp [hi.len]) (fun j hj => by rw [nth_set hl, if_neg hj]) (fun j hj => by rw [nth_set (by rw [← hi.len]; exact hl), if_neg hj])
    (by rw [nth_set hl, if_pos rfl]) (by rw [nth_set (by rw [← hi.len]; exact hl), if_pos rfl])

end

/-- an array with an old node is added -/
theorem append_arr (hi : InvS triv ea ew s e) {x : A} {ys : List α} {c : Cell α} (hx : x.size = ys.length) (hc : s.mem x.ptr = some c)
    (hs : c.slots = ys.map some) (ht : ∀ j u zs, nth s.vars j = some (.tr u) → nth e j = some (.tr zs) → c.tok ≠ u.tok) :
    Inv triv ea ew s.mem (s.vars ++ [some (.arr x)]) (e ++ [some (.arr ys)]) s.next :=
  append_inv hi fun _ _ h1 h2 h3 h4 h5 => hi.putA h1 h2 h3 h4 h5 hx hc hs fun j u zs _ => ht j u zs

theorem zero_sep (hi : InvS triv ea ew s e) {c : Cell α} (hc : c.tok = 0) (j : Nat) (u : Tr) (zs : List α) (hu : nth s.vars j = some (.tr u))
    (hz : nth e j = some (.tr zs)) : c.tok ≠ u.tok := by have := (hi.tokPos hu hz).1; omega

theorem gone_set (hi : InvS triv ea ew s e) {i : Nat} {t : Tr} (hl : i < s.vars.length) :
    Inv triv ea ew s.mem (s.vars.set i (some (.tr t))) (e.set i (some .gone)) s.next :=
  set_inv hi hl fun _ _ h1 h2 h3 h4 h5 => hi.drop h1 h2 h3 h4 h5 trivial (.inr rfl)

/-- the two tokens of a copy -/
theorem tick2 {op : Op α} {k1 k2 : Mem α → St α} (hi : InvS triv ea ew s e) (h1 : InvS triv ea ew (k1 s.mem) e) (h2 : InvS triv ea ew (k2 s.mem) e') :
    Good triv mv ea ew f op e e' (match tick s.mem f with
      | .ok m f _ => match tick m f with
        | .ok m _ _ => .ok (k2 m)
        | .thrown m _ => .thrown (k1 m)
        | .ub => .ub
      | .thrown m _ => .thrown { s with mem := m }
      | .ub => .ub) := by
  have ht := tick_out (m := s.mem) (f := f)
  cases hx : tick s.mem f with
  | ub => rw [hx] at ht; exact ht
  | thrown m f' => rw [hx] at ht; obtain ⟨rfl, hf⟩ := ht; exact ⟨hf, e, .inl rfl, hi⟩
  | ok m f' b =>
    rw [hx] at ht
    obtain ⟨rfl, hf⟩ := ht
    have ht := tick_out (m := s.mem) (f := f')
    simp only
    cases hy : tick s.mem f' with
    | ub => rw [hy] at ht; exact ht
    | thrown m f'' => rw [hy] at ht; obtain ⟨rfl, hf'⟩ := ht; exact ⟨fun h => hf' (hf h), e, .inl rfl, h1⟩
    | ok m f'' b => rw [hy] at ht; obtain ⟨rfl, _⟩ := ht; exact h2

theorem modify_set {xs : List α} {i : Nat} {g : α → α} (h : i < xs.length) : xs.set i (g xs[i]) = xs.modify i g := by
  rw [List.modify_eq_set_getElem?]; simp [h]

theorem Inv.more {m : Mem α} {vs : List (Option Obj)} {n n' : Nat} (hi : Inv triv ea ew m vs e n) (h : n ≤ n') : Inv triv ea ew m vs e n' :=
  ⟨hi.len, fun i => rep_frame (hi.rep i) h fun _ _ _ => rfl, hi.toks, hi.sep, fun p c hc => Nat.lt_of_lt_of_le (hi.cells p c hc) h, hi.statA, hi.statW,
    Nat.lt_of_lt_of_le hi.pos h⟩

theorem set_same {β : Type} {l : List (Option β)} {i : Nat} {o : β} (h : nth l i = some o) : l.set i (some o) = l := by
  have hl := nth_lt h
  apply List.ext_getElem?
  intro k
  rw [List.getElem?_set]
  split
  · next hk =>
    subst hk
    unfold nth at h
    rw [List.getElem?_eq_getElem hl] at h ⊢
    simpa using h.symm
  · rfl

/-- copying a transient over another -/
theorem copyAssign_tr (hi : InvS triv ea ew s e) {op : Op α} {i j : Nat} {t u : Tr} {ys : List α} (h1 : s.obj i = some (.tr t)) (h2 : s.obj j = some (.tr u))
    (hv : nth e j = some (.tr ys)) : Good triv mv ea ew f op e (e.set i (some (.tr ys))) (match tick s.mem f with
      | .ok m f _ => match tick m f with
        | .ok m _ _ => .ok { s with mem := m, vars := (s.vars.set j (some (.tr { u with tok := s.next }))).set i (some (.tr { u with tok := s.next + 1 })), next := s.next + 2 }
        | .thrown m _ => .thrown { s with mem := m, vars := s.vars.set j (some (.tr { u with tok := s.next })), next := s.next + 1 }
        | .ub => .ub
      | .thrown m _ => .thrown { s with mem := m }
      | .ub => .ub) := by
  have hli := nth_lt (show nth s.vars i = _ from h1)
  have hlj := nth_lt (show nth s.vars j = _ from h2)
  obtain ⟨u', c, h3, h4, h5⟩ := obj_tr hi hv
  cases h3.symm.trans h2
  have hcl := hi.cells _ _ h4
  obtain ⟨rest, hsl, _⟩ := h5.slots
  have hr := renew hi (k := s.next) (n := s.next + 2) h2 hv (by omega) (by omega)
  refine tick2 hi (k1 := fun m => { s with mem := m, vars := s.vars.set j (some (.tr { u with tok := s.next })), next := s.next + 1 }) (k2 := fun m =>
    { s with mem := m, vars := (s.vars.set j (some (.tr { u with tok := s.next }))).set i (some (.tr { u with tok := s.next + 1 })), next := s.next + 2 })
    (renew hi (n := s.next + 1) h2 hv (Nat.le_refl _) (Nat.lt_succ_self _)) ?_
  refine set_inv (s := { s with vars := s.vars.set j (some (.tr { u with tok := s.next })), next := s.next + 2 }) hr (by simpa using hli) fun _ _ g1 g2 g3 g4 g5 =>
    Inv.putT (t := { u with tok := s.next + 1 }) (c := c) hr g1 g2 g3 g4 g5 (Nat.le_refl _) (Nat.succ_pos _) (show s.next + 1 < s.next + 2 by omega) h4
      ⟨h5.size, h5.cap, rest, hsl, fun h => absurd h (by show c.tok ≠ s.next + 1; omega)⟩ ?_ ?_
  · intro k w zs _ hw hz
    simp only at hw ⊢
    rw [nth_set hlj] at hw
    by_cases hk : k = j
    · rw [if_pos hk] at hw; cases hw; simp only; omega
    · rw [if_neg hk] at hw
      have := (hi.tokPos hw hz).2
      exact ⟨by omega, hi.sep k j w zs (.tr u) (.tr ys) c hk hw hz h2 hv (by simp) h4⟩
  · intro k o w d _ _ _ _ hp
    have := hi.cells _ _ hp
    show d.tok ≠ s.next + 1
    omega

/-- moving a transient over another -/
theorem moveAssign_tr (hi : InvS triv ea ew s e) {i j : Nat} {t u : Tr} {ys : List α} (h1 : s.obj i = some (.tr t)) (h2 : s.obj j = some (.tr u))
    (hv : nth e j = some (.tr ys)) : Inv triv ea ew s.mem ((s.vars.set j (some (.tr { t with tok := u.tok }))).set i (some (.tr u)))
      ((e.set j (some .gone)).set i (some (.tr ys))) s.next := by
  have hli := nth_lt (show nth s.vars i = _ from h1)
  have hlj := nth_lt (show nth s.vars j = _ from h2)
  have hle : j < e.length := by rw [← hi.len]; exact hlj
  obtain ⟨u', c, h3, h4, h5⟩ := obj_tr hi hv
  cases h3.symm.trans h2
  have hr := gone_set hi (t := { t with tok := u.tok }) hlj
  obtain ⟨p0, p1⟩ := hi.tokPos h2 hv
  refine set_inv (s := { s with vars := s.vars.set j (some (.tr { t with tok := u.tok })) }) hr (by simpa using hli) fun _ _ g1 g2 g3 g4 g5 =>
    Inv.putT (c := c) hr g1 g2 g3 g4 g5 (Nat.le_refl _) p0 p1 h4 h5 ?_ ?_
  · intro k w zs _ hw hz
    rw [nth_set hlj] at hw
    rw [nth_set hle] at hz
    by_cases hk : k = j
    · rw [if_pos hk] at hz; cases hz
    · rw [if_neg hk] at hw hz
      exact ⟨hi.toks j k u w ys zs (Ne.symm hk) h2 hv hw hz, hi.sep k j w zs (.tr u) (.tr ys) c hk hw hz h2 hv (by simp) h4⟩
  · intro k o w d _ ho hw hg hp
    rw [nth_set hlj] at ho
    rw [nth_set hle] at hw
    by_cases hk : k = j
    · rw [if_pos hk] at hw; cases hw; exact absurd rfl hg
    · rw [if_neg hk] at ho hw
      exact hi.sep j k u ys o w d (Ne.symm hk) h2 hv ho hw hg hp

/-- every operation -/
theorem step_good (hi : InvS triv ea ew s e) (ha : s.mem a = none) {op : Op α} (hs : spec op e = some e') (hsafe : Safe triv op s) :
    Good triv mv ea ew f op e e' (step triv mv ea ew a f op s) := by
  cases op with
  | fromRange xs =>
    cases hs
    by_cases hx : xs = []
    · subst hx
      have h : Out f (A.fromRange triv ea [] a s.mem f) (fun m r => m = s.mem ∧ r = (⟨ea, 0⟩ : A)) (fun m => m = s.mem) := ⟨⟨rfl, rfl⟩, id⟩
      refine run_same (k := fun m r => { s with mem := m, vars := s.vars ++ [some (.arr r)] }) hi h ?_
      rintro _ _ ⟨rfl, rfl⟩
      exact append_arr hi rfl hi.statA rfl fun j u zs => zero_sep hi rfl j u zs
    · exact run_same hi (A.fromRange_out ha hx) fun _ _ h => hi.newA ha h
  | fromFill n v => cases hs; exact run_same hi (A.fromFill_out ha) fun _ _ h => hi.newA ha h
  | newTr =>
    cases hs
    refine run_same hi tick_out ?_
    rintro _ _ rfl
    refine append_inv hi fun _ _ h1 h2 h3 h4 h5 => hi.putNew h1 h2 h3 h4 h5 (Nat.le_refl _) (Nat.lt_succ_self _) hi.statW ?_ ?_
    · exact ⟨rfl, rfl, [none], rfl, fun _ => .inr (by simp)⟩
    · exact fun j u zs _ => zero_sep hi rfl j u zs
  | copyCtor i =>
    match hv : nth e i with
    | none => simp [spec, hv] at hs
    | some .gone => simp [spec, hv] at hs
    | some (.arr xs) =>
      simp [spec, hv] at hs; subst hs
      obtain ⟨x, c, h1, h2, h3, h4⟩ := obj_arr hi hv
      simp only [step, h1]
      exact append_arr hi h2 h3 h4 fun j u zs => arr_sep hi h1 hv h3 j u zs
    | some (.tr xs) =>
      simp [spec, hv] at hs; subst hs
      obtain ⟨t, c, h1, h2, h3⟩ := obj_tr hi hv
      simp only [step, h1]
      have hr := renew hi (k := s.next + 1) (n := s.next + 2) h1 hv (by omega) (by omega)
      refine tick2 hi (hi.more (Nat.le_succ _)) (k1 := fun m => { s with mem := m, next := s.next + 1 }) (k2 := fun m =>
        { s with mem := m, vars := s.vars.set i (some (.tr { t with tok := s.next + 1 })) ++ [some (.tr { t with tok := s.next })], next := s.next + 2 }) ?_
      have hcl := hi.cells _ _ h2
      obtain ⟨rest, hsl, _⟩ := h3.slots
      have hlv := nth_lt (show nth s.vars i = _ from h1)
      refine append_inv (s := { s with vars := s.vars.set i (some (.tr { t with tok := s.next + 1 })), next := s.next + 2 }) hr fun _ _ g1 g2 g3 g4 g5 =>
        Inv.putT (t := { t with tok := s.next }) (c := c) hr g1 g2 g3 g4 g5 (Nat.le_refl _) hi.pos (show s.next < s.next + 2 by omega) h2
          ⟨h3.size, h3.cap, rest, hsl, fun h => absurd h (by show c.tok ≠ s.next; omega)⟩ ?_ ?_
      · intro j u zs _ hu hz
        simp only at hu ⊢
        rw [nth_set hlv] at hu
        by_cases hj : j = i
        · rw [if_pos hj] at hu; cases hu; simp only; omega
        · rw [if_neg hj] at hu
          have := (hi.tokPos hu hz).2
          exact ⟨by omega, hi.sep j i u zs (.tr t) (.tr xs) c hj hu hz h1 hv (by simp) h2⟩
      · intro j o w d _ _ _ _ hp
        have := hi.cells _ _ hp
        show d.tok ≠ s.next
        omega
  | moveCtor i =>
    match hv : nth e i with
    | none => simp [spec, hv] at hs
    | some .gone => simp [spec, hv] at hs
    | some (.arr xs) =>
      simp [spec, hv] at hs; subst hs
      obtain ⟨x, c, h1, h2, h3, h4⟩ := obj_arr hi hv
      simp only [step, h1]
      have hlv := nth_lt (show nth s.vars i = _ from h1)
      have hr : Inv triv ea ew s.mem (s.vars.set i (some (.arr ⟨ea, 0⟩))) (e.set i (some (.arr []))) s.next :=
        set_inv hi hlv fun _ _ g1 g2 g3 g4 g5 => hi.putA g1 g2 g3 g4 g5 rfl hi.statA rfl fun j u zs _ => zero_sep hi rfl j u zs
      refine append_arr (s := { s with vars := s.vars.set i (some (.arr ⟨ea, 0⟩)) }) hr h2 h3 h4 fun j u zs hu hz => ?_
      simp only at hu
      rw [nth_set hlv] at hu
      by_cases hj : j = i
      · rw [if_pos hj] at hu; cases hu
      · rw [if_neg hj] at hu
        rw [nth_set (by rw [← hi.len]; exact hlv), if_neg hj] at hz
        exact arr_sep hi h1 hv h3 j u zs hu hz
    | some (.tr xs) =>
      simp [spec, hv] at hs; subst hs
      obtain ⟨t, c, h1, h2, h3⟩ := obj_tr hi hv
      simp only [step, h1]
      have hlv := nth_lt (show nth s.vars i = _ from h1)
      have hle : i < e.length := by rw [← hi.len]; exact hlv
      have hr := gone_set hi (t := ⟨ew, 0, 1, t.tok⟩) hlv
      obtain ⟨p0, p1⟩ := hi.tokPos h1 hv
      refine append_inv (s := { s with vars := s.vars.set i (some (.tr ⟨ew, 0, 1, t.tok⟩)) }) hr fun _ _ g1 g2 g3 g4 g5 =>
        Inv.putT (c := c) hr g1 g2 g3 g4 g5 (Nat.le_refl _) p0 p1 h2 h3 ?_ ?_
      · intro j u zs _ hu hz
        rw [nth_set hlv] at hu
        rw [nth_set hle] at hz
        by_cases hj : j = i
        · rw [if_pos hj] at hz; cases hz
        · rw [if_neg hj] at hu hz
          exact ⟨hi.toks i j t u xs zs (Ne.symm hj) h1 hv hu hz, hi.sep j i u zs (.tr t) (.tr xs) c hj hu hz h1 hv (by simp) h2⟩
      · intro j o w d _ ho hw hg hp
        rw [nth_set hlv] at ho
        rw [nth_set hle] at hw
        by_cases hj : j = i
        · rw [if_pos hj] at hw; cases hw; exact absurd rfl hg
        · rw [if_neg hj] at ho hw
          exact hi.sep i j t xs o w d (Ne.symm hj) h1 hv ho hw hg hp
  | copyAssign i j =>
    match hv : nth e i, hw : nth e j with
    | none, _ => simp [spec, hv] at hs
    | some (.arr xs), none => simp [spec, hv, hw] at hs
    | some (.arr xs), some (.tr ys) => simp [spec, hv, hw] at hs
    | some (.arr xs), some .gone => simp [spec, hv, hw] at hs
    | some (.tr xs), none => simp [spec, hv, hw] at hs
    | some (.tr xs), some (.arr ys) => simp [spec, hv, hw] at hs
    | some (.tr xs), some .gone => simp [spec, hv, hw] at hs
    | some .gone, none => simp [spec, hv, hw] at hs
    | some .gone, some (.arr ys) => simp [spec, hv, hw] at hs
    | some .gone, some .gone => simp [spec, hv, hw] at hs
    | some (.arr xs), some (.arr ys) =>
      simp [spec, hv, hw] at hs; subst hs
      obtain ⟨x, c, h1, h2, h3, h4⟩ := obj_arr hi hv
      obtain ⟨y, d, k1, k2, k3, k4⟩ := obj_arr hi hw
      simp only [step, h1, k1]
      exact set_inv hi (nth_lt (show nth s.vars i = _ from h1)) fun _ _ g1 g2 g3 g4 g5 =>
        hi.putA g1 g2 g3 g4 g5 k2 k3 k4 fun k u zs _ => arr_sep hi k1 hw k3 k u zs
    | some (.tr xs), some (.tr ys) =>
      simp [spec, hv, hw] at hs; subst hs
      obtain ⟨t, c, h1, _, _⟩ := obj_tr hi hv
      obtain ⟨u, d, k1, _, _⟩ := obj_tr hi hw
      simp only [step, h1, k1]
      exact copyAssign_tr hi h1 k1 hw
    | some .gone, some (.tr ys) =>
      simp [spec, hv, hw] at hs; subst hs
      obtain ⟨t, h1⟩ := obj_gone hi hv
      obtain ⟨u, d, k1, _, _⟩ := obj_tr hi hw
      simp only [step, h1, k1]
      exact copyAssign_tr hi h1 k1 hw
  | moveAssign i j =>
    match hv : nth e i, hw : nth e j with
    | none, _ => simp [spec, hv] at hs
    | some (.arr xs), none => simp [spec, hv, hw] at hs
    | some (.arr xs), some (.tr ys) => simp [spec, hv, hw] at hs
    | some (.arr xs), some .gone => simp [spec, hv, hw] at hs
    | some (.tr xs), none => simp [spec, hv, hw] at hs
    | some (.tr xs), some (.arr ys) => simp [spec, hv, hw] at hs
    | some (.tr xs), some .gone => simp [spec, hv, hw] at hs
    | some .gone, none => simp [spec, hv, hw] at hs
    | some .gone, some (.arr ys) => simp [spec, hv, hw] at hs
    | some .gone, some .gone => simp [spec, hv, hw] at hs
    | some (.arr xs), some (.arr ys) =>
      simp [spec, hv, hw] at hs; subst hs
      obtain ⟨x, c, h1, h2, h3, h4⟩ := obj_arr hi hv
      obtain ⟨y, d, k1, k2, k3, k4⟩ := obj_arr hi hw
      simp only [step, h1, k1]
      have hli := nth_lt (show nth s.vars i = _ from h1)
      have hlj := nth_lt (show nth s.vars j = _ from k1)
      have hr : Inv triv ea ew s.mem (s.vars.set j (some (.arr x))) (e.set j (some (.arr xs))) s.next :=
        set_inv hi hlj fun _ _ g1 g2 g3 g4 g5 => hi.putA g1 g2 g3 g4 g5 h2 h3 h4 fun k u zs _ => arr_sep hi h1 hv h3 k u zs
      refine set_inv (s := { s with vars := s.vars.set j (some (.arr x)) }) hr (by simpa using hli) fun _ _ g1 g2 g3 g4 g5 =>
        Inv.putA hr g1 g2 g3 g4 g5 k2 k3 k4 fun k u zs _ hu hz => ?_
      rw [nth_set hlj] at hu
      rw [nth_set (by rw [← hi.len]; exact hlj)] at hz
      by_cases hk : k = j
      · rw [if_pos hk] at hu; cases hu
      · rw [if_neg hk] at hu hz
        exact arr_sep hi k1 hw k3 k u zs hu hz
    | some (.tr xs), some (.tr ys) =>
      simp [spec, hv, hw] at hs; subst hs
      obtain ⟨t, c, h1, _, _⟩ := obj_tr hi hv
      obtain ⟨u, d, k1, _, _⟩ := obj_tr hi hw
      simp only [step, h1, k1]
      exact moveAssign_tr hi h1 k1 hw
    | some .gone, some (.tr ys) =>
      simp [spec, hv, hw] at hs; subst hs
      obtain ⟨t, h1⟩ := obj_gone hi hv
      obtain ⟨u, d, k1, _, _⟩ := obj_tr hi hw
      simp only [step, h1, k1]
      exact moveAssign_tr hi h1 k1 hw
  | destroy i =>
    match hv : nth e i with
    | none => simp [spec, hv] at hs
    | some w =>
      simp [spec, hv] at hs; subst hs
      have hr := hi.rep i
      rw [hv] at hr
      match ho : nth s.vars i with
      | none => rw [ho] at hr; cases w <;> exact hr.elim
      | some o =>
        simp only [step, show s.obj i = some o from ho]
        exact set_inv hi (nth_lt ho) fun _ _ g1 g2 g3 g4 g5 => hi.drop g1 g2 g3 g4 g5 trivial (.inl rfl)
  | pushBack i v =>
    match hv : nth e i with
    | none => simp [spec, hv] at hs
    | some .gone => simp [spec, hv] at hs
    | some (.arr xs) =>
      simp [spec, hv] at hs; subst hs
      obtain ⟨x, c, h1, h2, h3, h4⟩ := obj_arr hi hv
      simp only [step, h1]
      exact run_same hi (A.pushBack_out ha h3 h4 h2) fun _ _ h => hi.newA ha h
    | some (.tr xs) =>
      simp [spec, hv] at hs; obtain ⟨hl, rfl⟩ := hs
      obtain ⟨t, c, h1, h2, h3⟩ := obj_tr hi hv
      simp only [step, h1]
      exact run_same hi (Tr.pushBack_out ha h2 h3 hl) fun _ _ h => hi.upd ha h1 hv h
  | set i idx v =>
    match hv : nth e i with
    | none => simp [spec, hv] at hs
    | some .gone => simp [spec, hv] at hs
    | some (.arr xs) =>
      simp [spec, hv] at hs; obtain ⟨hl, rfl⟩ := hs
      obtain ⟨x, c, h1, h2, h3, h4⟩ := obj_arr hi hv
      simp only [step, h1]
      exact run_same hi (A.assoc_out ha h3 h4 h2 hl) fun _ _ h => hi.newA ha h
    | some (.tr xs) =>
      simp [spec, hv] at hs; obtain ⟨hl, rfl⟩ := hs
      obtain ⟨t, c, h1, h2, h3⟩ := obj_tr hi hv
      simp only [step, h1]
      exact run_same hi (Tr.assoc_out ha h2 h3 hl) fun _ _ h => hi.upd ha h1 hv h
  | update i idx g =>
    match hv : nth e i with
    | none => simp [spec, hv] at hs
    | some .gone => simp [spec, hv] at hs
    | some (.arr xs) =>
      simp [spec, hv] at hs; obtain ⟨hl, rfl⟩ := hs
      obtain ⟨x, c, h1, h2, h3, h4⟩ := obj_arr hi hv
      simp only [step, h1]
      rw [← modify_set hl]
      exact run_same hi (A.update_out ha h3 h4 h2 hl) fun _ _ h => hi.newA ha h
    | some (.tr xs) =>
      simp [spec, hv] at hs; obtain ⟨hl, rfl⟩ := hs
      obtain ⟨t, c, h1, h2, h3⟩ := obj_tr hi hv
      simp only [step, h1]
      rw [← modify_set hl]
      refine run_good (Tr.update_out ha h2 h3 hl) (fun _ _ h => hi.upd ha h1 hv h) ?_
      rintro m (rfl | h)
      · exact ⟨e, .inl rfl, hi⟩
      · refine ⟨e.set i (some (.tr (xs.modify idx mv))), .inr ⟨i, idx, g, xs, rfl, hv, rfl⟩, ?_⟩
        rw [← modify_set hl]
        have := hi.upd ha h1 hv h
        rwa [set_same h1] at this
  | take i n =>
    match hv : nth e i with
    | none => simp [spec, hv] at hs
    | some .gone => simp [spec, hv] at hs
    | some (.arr xs) =>
      simp [spec, hv] at hs; obtain ⟨hl, rfl⟩ := hs
      obtain ⟨x, c, h1, h2, h3, h4⟩ := obj_arr hi hv
      simp only [step, h1]
      exact run_same hi (A.take_out ha h3 h4 h2 hl) fun _ _ h => hi.newA ha h
    | some (.tr xs) =>
      simp [spec, hv] at hs; obtain ⟨hl, rfl⟩ := hs
      obtain ⟨t, c, h1, h2, h3⟩ := obj_tr hi hv
      simp only [step, h1]
      have hsf := hsafe i n t c rfl h1 h2
      rw [h3.size] at hsf
      exact run_same hi (Tr.take_out ha h2 h3 hl hsf) fun _ _ h => hi.upd ha h1 hv h
  | dataMutWrite i idx v =>
    match hv : nth e i with
    | none => simp [spec, hv] at hs
    | some .gone => simp [spec, hv] at hs
    | some (.arr xs) => simp [spec, hv] at hs
    | some (.tr xs) =>
      simp [spec, hv] at hs; obtain ⟨hl, rfl⟩ := hs
      obtain ⟨t, c, h1, h2, h3⟩ := obj_tr hi hv
      simp only [step, h1]
      exact run_same hi (Tr.dataMutWrite_out ha h2 h3 hl) fun _ _ h => hi.upd ha h1 hv h
  | transient i =>
    match hv : nth e i with
    | none => simp [spec, hv] at hs
    | some .gone => simp [spec, hv] at hs
    | some (.tr xs) => simp [spec, hv] at hs
    | some (.arr xs) =>
      simp [spec, hv] at hs; subst hs
      obtain ⟨x, c, h1, h2, h3, h4⟩ := obj_arr hi hv
      simp only [step, h1]
      refine run_same hi tick_out ?_
      rintro _ _ rfl
      refine append_inv hi fun _ _ g1 g2 g3 g4 g5 => hi.putNew g1 g2 g3 g4 g5 (Nat.le_refl _) (Nat.lt_succ_self _) h3 ?_ ?_
      · exact ⟨h2, by rw [h4]; simpa using h2.symm, [], by simpa using h4, fun _ => .inr (by simp)⟩
      · exact fun j u zs _ => arr_sep hi h1 hv h3 j u zs
  | persistent i =>
    match hv : nth e i with
    | none => simp [spec, hv] at hs
    | some .gone => simp [spec, hv] at hs
    | some (.arr xs) => simp [spec, hv] at hs
    | some (.tr xs) =>
      simp [spec, hv] at hs; subst hs
      obtain ⟨t, c, h1, h2, h3⟩ := obj_tr hi hv
      simp only [step, h1]
      have hlv := nth_lt (show nth s.vars i = _ from h1)
      have hcl := hi.cells _ _ h2
      have hr := renew hi (k := s.next) (n := s.next + 1) h1 hv (by omega) (by omega)
      have ht := tick_out (m := s.mem) (f := f)
      cases hx : tick s.mem f with
      | ub => rw [hx] at ht; exact ht
      | thrown m f' => rw [hx] at ht; obtain ⟨rfl, hf⟩ := ht; exact ⟨hf, e, .inl rfl, hi⟩
      | ok m f' b =>
        rw [hx] at ht
        obtain ⟨rfl, hf⟩ := ht
        simp only
        have hg := run_same (s := { s with vars := s.vars.set i (some (.tr { t with tok := s.next })), next := s.next + 1 }) (f := f') (mv := mv)
          (op := .persistent i) (e' := e ++ [some (.arr xs)])
          (k := fun m r => { s with mem := m, vars := s.vars.set i (some (.tr { t with tok := s.next })) ++ [some (.arr r)], next := s.next + 1 })
          hr (Tr.toA_out (triv := triv) (a := a) ha h2 h3) ?_
        · generalize St.run _ _ _ _ = r at hg ⊢
          cases r with
          | ok s' => exact hg
          | thrown s' => exact ⟨fun h => hg.1 (hf h), hg.2⟩
          | ub => exact hg
          | no => exact hg
        · rintro m r (h | ⟨rfl, rfl, h⟩)
          · exact Inv.newA hr ha h
          · refine append_arr (s := { s with vars := s.vars.set i (some (.tr { t with tok := s.next })), next := s.next + 1 }) hr rfl h2 h fun j u zs hu hz => ?_
            rw [nth_set hlv] at hu
            by_cases hj : j = i
            · rw [if_pos hj] at hu; cases hu; simp only; omega
            · rw [if_neg hj] at hu
              exact hi.sep j i u zs (.tr t) (.tr xs) c hj hu hz h1 hv (by simp) h2
  | persistentMove i =>
    match hv : nth e i with
    | none => simp [spec, hv] at hs
    | some .gone => simp [spec, hv] at hs
    | some (.arr xs) => simp [spec, hv] at hs
    | some (.tr xs) =>
      simp [spec, hv] at hs; subst hs
      obtain ⟨t, c, h1, h2, h3⟩ := obj_tr hi hv
      simp only [step, h1]
      have hlv := nth_lt (show nth s.vars i = _ from h1)
      have hr := gone_set hi (t := t) hlv
      rw [set_same h1] at hr
      refine run_same hi (Tr.toA_out ha h2 h3) ?_
      rintro m r (h | ⟨rfl, rfl, h⟩)
      · exact hr.newA ha h
      · refine append_arr (s := s) hr rfl h2 h fun j u zs hu hz => ?_
        rw [nth_set (by rw [← hi.len]; exact hlv)] at hz
        by_cases hj : j = i
        · rw [if_pos hj] at hz; cases hz
        · rw [if_neg hj] at hz
          exact hi.sep j i u zs (.tr t) (.tr xs) c hj hu hz h1 hv (by simp) h2
  | collect p =>
    cases hs
    simp only [step]
    split
    · next h => exact hi.collect h.1 h.2.1 h.2.2
    · exact ⟨p, rfl⟩

end ArrGc
