import Verif.Array.Correct

/-!
# Every operation of `array` and `array_transient` does what it does to lists
-/

namespace Arr

variable {α : Type}

section
variable {triv : Bool} {e e' : List (Option (List α))} {s : St α} {mv : α → α} {a : Nat}

/-- what every operation guarantees -/
abbrev Good (triv : Bool) (mv : α → α) (op : Op α) (e e' : List (Option (List α))) (r : Res α Unit) : Prop :=
  Out r (fun s' _ => Inv triv s' e') (fun s' => ∃ e'', specThrow mv op e e'' ∧ Inv triv s' e'')

theorem good_of {op : Op α} {r : Res α Unit} (h : Out r (fun s' _ => Inv triv s' e') (fun s' => Inv triv s' e)) : Good triv mv op e e' r :=
  out_mono h (fun _ _ h => h) (fun _ h => ⟨e, .inl rfl, h⟩)

/-- the common part of the operations that make a changed copy -/
theorem copied_new {op : Op α} (hi : Inv triv s e) {i n k : Nat} {h : H} {xs ys : List α} (ha : s.mem a = none)
    (hm : (some h, some xs) ∈ s.vars.zip e) (hk : k ≤ xs.length) (hn : k ≤ n) {x : M α Unit} {q : H}
    (hx : ∀ s', P triv s.vars ((some ⟨a, k, n⟩, some (xs.take k)) :: s.vars.zip e) s' → cnt a (s.vars.zip e) = 0 →
      Out (x s') (fun s'' _ => P triv s.vars ((some q, some ys) :: s.vars.zip e) s'')
        (fun s'' => ∃ zs, P triv s.vars ((some ⟨a, k, n⟩, some zs) :: s.vars.zip e) s'')) :
    Good triv mv op e (e ++ [some ys])
      (((copyN triv a n h.ptr k).bind fun _ => (x.bind fun _ => pushVar q).guard (deleteN triv a k n)) s) ∧
    (∀ p o, i ≠ 0 → s.vars[i]? = some (some p) → e[i]? = some o → Good triv mv op e (e.set i (some ys))
      (((copyN triv a n h.ptr k).bind fun _ => (x.bind fun _ => replace triv i q).guard (deleteN triv a k n)) s)) := by
  constructor
  · refine good_of (out_bind (out_mono (copyN_P hi.P ha hm hk hn) (fun _ _ h => h) fun _ h => hi.ofP h) fun s1 _ h1 => ?_)
    refine out_guard (out_bind (hx s1 h1.1 h1.2) fun s2 _ h2 => pushVar_inv hi h2) fun s2 h2 => ?_
    obtain ⟨zs, h2⟩ := h2
    exact deleteN_cleanup hi (p := ⟨a, k, n⟩) h2 h1.2 rfl
  · intro p o hi0 hp ho
    refine good_of (out_bind (out_mono (copyN_P hi.P ha hm hk hn) (fun _ _ h => h) fun _ h => hi.ofP h) fun s1 _ h1 => ?_)
    refine out_guard (out_bind (hx s1 h1.1 h1.2) fun s2 _ h2 => replace_inv hi hi0 hp ho h2) fun s2 h2 => ?_
    obtain ⟨zs, h2⟩ := h2
    exact deleteN_cleanup hi (p := ⟨a, k, n⟩) h2 h1.2 rfl

/-- the state as seen by a variable that may change its node in place -/
theorem Inv.solo (hi : Inv triv s e) {i : Nat} {p : H} {xs : List α} (h1 : s.vars[i]? = some (some p)) (h2 : e[i]? = some (some xs)) :
    Arr.P triv s.vars ((some p, some xs) :: (s.vars.eraseIdx i).zip (e.eraseIdx i)) s :=
  ⟨rfl, hi.inv.perm (zip_perm h1 h2)⟩

theorem Inv.unsolo (hi : Inv triv s e) {i : Nat} (hi0 : i ≠ 0) {p q : H} {x : Option (List α)} {ys : List α} (h1 : s.vars[i]? = some (some p))
    (h2 : e[i]? = some x) {s' : St α}
    (h : Arr.P triv s.vars ((some q, some ys) :: (s.vars.eraseIdx i).zip (e.eraseIdx i)) s') :
    Inv triv { s' with vars := s'.vars.set i (some q) } (e.set i (some ys)) :=
  set_inv hi hi0 h1 h2 (by simp only [h.vars]) h.inv

theorem Inv.unsolo' (hi : Inv triv s e) {i : Nat} (hi0 : i ≠ 0) {p : H} {x : Option (List α)} {ys : List α} (h1 : s.vars[i]? = some (some p))
    (h2 : e[i]? = some x) {s' : St α}
    (h : Arr.P triv s.vars ((some p, some ys) :: (s.vars.eraseIdx i).zip (e.eraseIdx i)) s') :
    Inv triv s' (e.set i (some ys)) :=
  set_inv hi hi0 h1 h2 (by rw [h.vars, set_same h1]) h.inv

theorem recommendUp_le {sz cap : Nat} (h : sz ≤ maxSize) : sz ≤ recommendUp sz cap := by
  unfold recommendUp
  split
  · assumption
  · split
    · exact h
    · exact Nat.le_max_right _ _

theorem recommendDown_le {sz cap : Nat} (h : sz ≤ cap) : sz ≤ recommendDown sz cap := by
  unfold recommendDown
  split
  · omega
  · split <;> omega

theorem Inv.size (hi : Inv triv s e) {h : H} {xs : List α} (hm : (some h, some xs) ∈ s.vars.zip e) : h.size = xs.length ∧ xs.length ≤ h.cap := by
  obtain ⟨c, rest, _, h2, h3, h4, _⟩ := hi.inv.live hm
  refine ⟨h4, ?_⟩
  rw [← h3, h2]; simp

/-- constructing one more element at the end of a copy -/
theorem push_step {L : List (HV α)} {vs : List (Option H)} {k n : Nat} {xs : List α} {v : α} {s' : St α}
    (h : P triv vs ((some ⟨a, k, n⟩, some xs) :: L) s') (hu : cnt a L = 0) (hk : k < n) :
    Out ((tick.bind fun _ => construct triv a k v) s') (fun s'' _ => P triv vs ((some ⟨a, k + 1, n⟩, some (xs ++ [v])) :: L) s'')
      (P triv vs ((some ⟨a, k, n⟩, some xs) :: L)) :=
  out_bind (tick_P h) fun _ _ h1 => construct_P (h := ⟨a, k, n⟩) h1 hu hk

theorem assign_step {L : List (HV α)} {vs : List (Option H)} {p : H} {xs : List α} {v : α} {idx : Nat} {s' : St α}
    (h : P triv vs ((some p, some xs) :: L) s') (hu : cnt p.ptr L = 0) (hk : idx < xs.length) :
    Out ((tick.bind fun _ => assign p.ptr idx v) s') (fun s'' _ => P triv vs ((some p, some (xs.set idx v)) :: L) s'')
      (P triv vs ((some p, some xs) :: L)) :=
  out_bind (tick_P h) fun _ _ h1 => assign_P h1 hu hk

theorem step_fromRange {op : Op α} (hi : Inv triv s e) (ha : s.mem a = none) (xs : List α) :
    Good triv mv op e (e ++ [some xs]) (fromRange triv xs a s) := by
  unfold fromRange
  split
  · rename_i h0
    obtain rfl := List.length_eq_zero_iff.mp h0
    exact copyCtor_inv hi hi.stat'
  · exact good_of (out_bind (out_mono (copyRange_P hi.P ha (Nat.le_refl _)) (fun _ _ h => h) fun _ h => hi.ofP h) fun s1 _ h1 =>
      pushVar_inv hi h1.1)

theorem step_fromFill {op : Op α} (hi : Inv triv s e) (ha : s.mem a = none) (n : Nat) (v : α) :
    Good triv mv op e (e ++ [some (List.replicate n v)]) (fromFill triv n v a s) := by
  unfold fromFill
  have := copyRange_P (xs := List.replicate n v) (n := n) hi.P ha (by simp)
  rw [List.length_replicate] at this
  exact good_of (out_bind (out_mono this (fun _ _ h => h) fun _ h => hi.ofP h) fun s1 _ h1 => pushVar_inv hi h1.1)

theorem step_moveCtor {op : Op α} (hi : Inv triv s e) {i : Nat} (hi0 : i ≠ 0) {xs : List α} (he : e[i]? = some (some xs)) :
    Good triv mv op e (e.set i (some []) ++ [some xs]) (moveCtor i s) := by
  obtain ⟨p, h1, _⟩ := hi.var he
  obtain ⟨s', q, h3, h4, h5, h6⟩ := copyCtor_out hi hi.stat'
  have hlt : i < s.vars.length := (List.getElem?_eq_some_iff.mp h1).1
  unfold moveCtor
  rw [bind_ok h3]
  have hL : lastVar s' = .ok s' s.vars.length := by unfold lastVar; rw [h4]; simp
  rw [bind_ok hL]
  have hs : swap s.vars.length i s' = .ok { s' with vars := s.vars.set i (some q) ++ [some p] } () := by
    unfold swap
    rw [bind_ok (getVar_eq (p := q) (by rw [h4]; simp)),
      bind_ok (getVar_eq (p := p) (by rw [h4, List.getElem?_append_left hlt]; exact h1))]
    unfold setVar M.bind
    simp only [h4]
    congr 2
    rw [List.set_append_right _ _ (by simp), List.set_append_left _ _ hlt]
    simp
  rw [hs]
  have hp1 : InvL triv s'.mem ((some p, some xs) :: (s.vars.set i (some q)).zip (e.set i (some []))) := by
    refine h5.perm ?_
    refine (List.Perm.cons _ (zip_perm h1 he)).trans ((List.Perm.swap _ _ _).trans (List.Perm.cons _ ?_))
    exact (zip_set_perm h1 he (some q) (some [])).symm
  have hlen : (s.vars.set i (some q)).length = (e.set i (some ([] : List α))).length := by simp [hi.len]
  refine ⟨by simp [hi.len], ?_, ?_, hp1.perm (zip_snoc hlen).symm⟩
  · obtain ⟨z, hz⟩ := hi.stat
    refine ⟨z, ?_⟩
    show (s.vars.set i (some q) ++ [some p])[0]? = _
    rw [List.getElem?_append_left (by simp; omega), List.getElem?_set_ne hi0]
    exact hz
  · rw [List.getElem?_append_left (by simp [← hi.len]; omega), List.getElem?_set_ne hi0]
    exact hi.stat'

theorem step_copyAssign {op : Op α} (hi : Inv triv s e) {i j : Nat} (hi0 : i ≠ 0) {xs ys : List α} (he : e[i]? = some (some xs))
    (hj : e[j]? = some (some ys)) : Good triv mv op e (e.set i (some ys)) (copyAssign triv i j s) := by
  obtain ⟨p, h1, _⟩ := hi.var he
  obtain ⟨s', q, h3, h4, h5, h6⟩ := copyCtor_out hi hj
  unfold copyAssign
  rw [bind_ok h3]
  exact swapDrop hi hi0 h1 he h4 h5

theorem zip_swap {β γ : Type} {vs : List β} {e : List γ} {i j : Nat} {p q : β} {x y : γ} (h1 : vs[i]? = some p) (h2 : vs[j]? = some q)
    (h3 : e[i]? = some x) (h4 : e[j]? = some y) :
    (((vs.set i q).set j p).zip ((e.set i y).set j x)).Perm (vs.zip e) := by
  by_cases hij : i = j
  · subst hij
    rw [h1] at h2; cases h2; rw [h3] at h4; cases h4
    rw [set_same h1, set_same h3, set_same h1, set_same h3]
  · have a1 : (vs.set i q)[j]? = some q := by rw [List.getElem?_set_ne hij]; exact h2
    have a2 : (e.set i y)[j]? = some y := by rw [List.getElem?_set_ne hij]; exact h4
    have p1 := zip_set_perm a1 a2 p x
    have p2 := zip_perm a1 a2
    have p3 := zip_set_perm h1 h3 q y
    have p4 := zip_perm h1 h3
    have p5 : ((q, y) :: (vs.set i q |>.set j p).zip (e.set i y |>.set j x)).Perm ((q, y) :: vs.zip e) := by
      refine (List.Perm.cons _ p1).trans ((List.Perm.swap _ _ _).trans ?_)
      refine (List.Perm.cons _ (p2.symm.trans p3)).trans ((List.Perm.swap _ _ _).trans (List.Perm.cons _ p4.symm))
    exact p5.cons_inv

theorem step_swap {op : Op α} (hi : Inv triv s e) {i j : Nat} (hi0 : i ≠ 0) (hj0 : j ≠ 0) {xs ys : List α} (he : e[i]? = some (some xs))
    (hj : e[j]? = some (some ys)) : Good triv mv op e ((e.set i (some ys)).set j (some xs)) (swap i j s) := by
  obtain ⟨p, h1, _⟩ := hi.var he
  obtain ⟨q, h2, _⟩ := hi.var hj
  unfold swap
  rw [bind_ok (getVar_eq h1), bind_ok (getVar_eq h2)]
  refine ⟨?_, ?_, ?_, ?_⟩
  · simp [hi.len]
  · obtain ⟨z, hz⟩ := hi.stat
    refine ⟨z, ?_⟩
    show ((s.vars.set i (some q)).set j (some p))[0]? = _
    rw [List.getElem?_set_ne hj0, List.getElem?_set_ne hi0]; exact hz
  · rw [List.getElem?_set_ne hj0, List.getElem?_set_ne hi0]; exact hi.stat'
  · exact hi.inv.perm (zip_swap h1 h2 he hj).symm

theorem step_destroy {op : Op α} (hi : Inv triv s e) {i : Nat} (hi0 : i ≠ 0) {xs : List α} (he : e[i]? = some (some xs)) :
    Good triv mv op e (e.set i none) (destroyVar triv i s) := by
  obtain ⟨p, h1, _⟩ := hi.var he
  unfold destroyVar
  rw [bind_ok (getVar_eq h1)]
  have hs : setVar i none s = .ok { s with vars := s.vars.set i none } () := rfl
  rw [bind_ok hs]
  have hP : P triv (s.vars.set i none) ((some p, some xs) :: (s.vars.eraseIdx i).zip (e.eraseIdx i)) { s with vars := s.vars.set i none } :=
    ⟨rfl, (hi.solo h1 he).inv⟩
  exact out_mono (dec_P hP (E := fun _ => False)) (fun s' _ h => set_inv hi hi0 h1 he h.vars (inv_none.mpr h.inv)) (fun _ h => h.elim)

theorem step_pushBack {op : Op α} (hi : Inv triv s e) (ha : s.mem a = none) {i : Nat} {v : α} {xs : List α}
    (he : e[i]? = some (some xs)) (hm : xs.length < maxSize) : Good triv mv op e (e ++ [some (xs ++ [v])]) (pushBack triv i v a s) := by
  obtain ⟨p, h1, h2⟩ := hi.var he
  obtain ⟨h3, h4⟩ := hi.size h2
  unfold pushBack
  rw [bind_ok (getVar_eq h1)]
  have hc := recommendUp_le (sz := p.size + 1) (cap := p.cap) (by omega)
  refine (copied_new (i := 0) hi ha h2 (k := p.size) (n := recommendUp (p.size + 1) p.cap) (by omega) (by omega) (fun s' hs hu => ?_)).1
  have := push_step (v := v) hs hu (by omega)
  rw [h3, List.take_length] at this; rw [h3]
  exact out_mono this (fun _ _ h => h) (fun _ h => ⟨_, h⟩)

theorem step_pushBackMut {op : Op α} (hi : Inv triv s e) (ha : s.mem a = none) {i : Nat} (hi0 : i ≠ 0) {v : α} {xs : List α}
    (he : e[i]? = some (some xs)) (hm : xs.length < maxSize) :
    Good triv mv op e (e.set i (some (xs ++ [v]))) (pushBackMut triv i v a s) := by
  obtain ⟨p, h1, h2⟩ := hi.var he
  obtain ⟨h3, h4⟩ := hi.size h2
  obtain ⟨b, h5, h6⟩ := canMutate_out hi h1 he
  unfold pushBackMut
  rw [bind_ok (getVar_eq h1), bind_ok h5]
  split
  · rename_i hb
    have := push_step (a := p.ptr) (k := p.size) (n := p.cap) (v := v) (hi.solo h1 he) (h6 hb.1) hb.2
    refine good_of (out_bind (out_mono this (fun _ _ h => h) fun s' h => ?_) fun s' _ h => ?_)
    · have := hi.unsolo' hi0 h1 he h
      rwa [set_same he] at this
    · exact hi.unsolo hi0 h1 he h
  · have hc := recommendUp_le (sz := p.size + 1) (cap := p.cap) (by omega)
    refine (copied_new (i := i) hi ha h2 (k := p.size) (n := recommendUp (p.size + 1) p.cap) (by omega) (by omega) (fun s' hs hu => ?_)).2
      p _ hi0 h1 he
    have := push_step (v := v) hs hu (by omega)
    rw [h3, List.take_length] at this; rw [h3]
    exact out_mono this (fun _ _ h => h) (fun _ h => ⟨_, h⟩)

theorem step_assoc {op : Op α} (hi : Inv triv s e) (ha : s.mem a = none) {i idx : Nat} {v : α} {xs : List α}
    (he : e[i]? = some (some xs)) (hx : idx < xs.length) : Good triv mv op e (e ++ [some (xs.set idx v)]) (assoc triv i idx v a s) := by
  obtain ⟨p, h1, h2⟩ := hi.var he
  obtain ⟨h3, h4⟩ := hi.size h2
  unfold assoc
  rw [bind_ok (getVar_eq h1)]
  refine (copied_new (i := 0) hi ha h2 (k := p.size) (n := p.cap) (by omega) (by omega) (fun s' hs hu => ?_)).1
  rw [h3, List.take_length] at hs; rw [h3]
  exact out_mono (assign_step (v := v) hs hu hx) (fun _ _ h => h) (fun _ h => ⟨_, h⟩)

theorem step_assocMut {op : Op α} (hi : Inv triv s e) (ha : s.mem a = none) {i idx : Nat} (hi0 : i ≠ 0) {v : α} {xs : List α}
    (he : e[i]? = some (some xs)) (hx : idx < xs.length) :
    Good triv mv op e (e.set i (some (xs.set idx v))) (assocMut triv i idx v a s) := by
  obtain ⟨p, h1, h2⟩ := hi.var he
  obtain ⟨h3, h4⟩ := hi.size h2
  obtain ⟨b, h5, h6⟩ := canMutate_out hi h1 he
  unfold assocMut
  rw [bind_ok (getVar_eq h1), bind_ok h5]
  split
  · rename_i hb
    refine good_of (out_mono (assign_step (v := v) (hi.solo h1 he) (h6 hb) hx) (fun s' _ h => ?_) fun s' h => ?_)
    · exact hi.unsolo' hi0 h1 he h
    · have := hi.unsolo' hi0 h1 he h
      rwa [set_same he] at this
  · refine (copied_new (i := i) hi ha h2 (k := p.size) (n := p.cap) (by omega) (by omega) (fun s' hs hu => ?_)).2 p _ hi0 h1 he
    rw [h3, List.take_length] at hs; rw [h3]
    exact out_mono (assign_step (v := v) hs hu hx) (fun _ _ h => h) (fun _ h => ⟨_, h⟩)

theorem step_update {op : Op α} (hi : Inv triv s e) (ha : s.mem a = none) {i idx : Nat} {f : α → α} {xs : List α}
    (he : e[i]? = some (some xs)) (hx : idx < xs.length) :
    Good triv mv op e (e ++ [some (xs.set idx (f xs[idx]))]) (update triv mv i idx f a s) := by
  obtain ⟨p, h1, h2⟩ := hi.var he
  obtain ⟨h3, h4⟩ := hi.size h2
  unfold update
  rw [bind_ok (getVar_eq h1)]
  refine (copied_new (i := 0) hi ha h2 (k := p.size) (n := p.cap) (by omega) (by omega) (fun s' hs hu => ?_)).1
  rw [h3, List.take_length] at hs; rw [h3]
  exact out_mono (updateElem_P (mv := mv) (f := f) hs hu hx) (fun _ _ h => h) (fun _ h => ⟨_, h⟩)

theorem step_updateMut (hi : Inv triv s e) (ha : s.mem a = none) {i idx : Nat} (hi0 : i ≠ 0) {f : α → α} {xs : List α}
    (he : e[i]? = some (some xs)) (hx : idx < xs.length) :
    Good triv mv (.updateMut i idx f) e (e.set i (some (xs.set idx (f xs[idx])))) (updateMut triv mv i idx f a s) := by
  obtain ⟨p, h1, h2⟩ := hi.var he
  obtain ⟨h3, h4⟩ := hi.size h2
  obtain ⟨b, h5, h6⟩ := canMutate_out hi h1 he
  unfold updateMut
  rw [bind_ok (getVar_eq h1), bind_ok h5]
  split
  · rename_i hb
    refine out_mono (updateElem_P (mv := mv) (f := f) (hi.solo h1 he) (h6 hb) hx) (fun s' _ h => ?_) fun s' h => ?_
    · exact hi.unsolo' hi0 h1 he h
    · refine ⟨_, .inr ⟨i, idx, f, xs, xs[idx], rfl, ?_, List.getElem?_eq_getElem hx, rfl⟩, hi.unsolo' hi0 h1 he h⟩
      unfold val; rw [if_neg hi0, he]; rfl
  · refine (copied_new (i := i) hi ha h2 (k := p.size) (n := p.cap) (by omega) (by omega) (fun s' hs hu => ?_)).2 p _ hi0 h1 he
    rw [h3, List.take_length] at hs; rw [h3]
    exact out_mono (updateElem_P (mv := mv) (f := f) hs hu hx) (fun _ _ h => h) (fun _ h => ⟨_, h⟩)

theorem step_take {op : Op α} (hi : Inv triv s e) (ha : s.mem a = none) {i n : Nat} {xs : List α}
    (he : e[i]? = some (some xs)) (hx : n ≤ xs.length) : Good triv mv op e (e ++ [some (xs.take n)]) (take triv i n a s) := by
  obtain ⟨p, h1, h2⟩ := hi.var he
  obtain ⟨h3, h4⟩ := hi.size h2
  unfold take
  rw [bind_ok (getVar_eq h1)]
  exact good_of (out_bind (out_mono (copyN_P hi.P ha h2 hx (recommendDown_le (by omega))) (fun _ _ h => h) fun _ h => hi.ofP h) fun s1 _ h1 =>
      pushVar_inv hi h1.1)

theorem step_takeMut {op : Op α} (hi : Inv triv s e) (ha : s.mem a = none) {i n : Nat} (hi0 : i ≠ 0) {xs : List α}
    (he : e[i]? = some (some xs)) (hx : n ≤ xs.length) (hsafe : triv = true ∨ n = xs.length) :
    Good triv mv op e (e.set i (some (xs.take n))) (takeMut triv i n a s) := by
  obtain ⟨p, h1, h2⟩ := hi.var he
  obtain ⟨h3, h4⟩ := hi.size h2
  obtain ⟨b, h5, h6⟩ := canMutate_out hi h1 he
  unfold takeMut
  rw [bind_ok (getVar_eq h1), bind_ok h5]
  split
  · rename_i hb
    have hd : destroyN triv p.ptr p.size (p.size - n) s = .ok s () := by
      unfold destroyN
      rcases hsafe with rfl | rfl
      · rfl
      · rw [h3, Nat.sub_self]
        split <;> rfl
    rw [bind_ok hd]
    have hs := hi.solo h1 he
    obtain ⟨rest, g1, g2, g3, g4⟩ := hs.front (h6 hb)
    have hsl : (⟨1, xs.map some ++ rest⟩ : Cell α) = ⟨1, (xs.take n).map some ++ ((xs.drop n).map some ++ rest)⟩ := by
      rw [← List.append_assoc, ← List.map_append, List.take_append_drop]
    have hk := inv_slots (ys := xs.take n) (rest := (xs.drop n).map some ++ rest) hs.inv g1 rfl
      (by rw [← List.append_assoc, ← List.map_append, List.take_append_drop]; exact g2) ?_
    · have hmem : upd s.mem p.ptr (some { (⟨1, xs.map some ++ rest⟩ : Cell α) with slots := (xs.take n).map some ++ ((xs.drop n).map some ++ rest) }) = s.mem := by
        funext q
        by_cases hq : q = p.ptr
        · subst hq; rw [upd_self, g1, hsl]
        · rw [upd_ne hq]
      rw [hmem] at hk
      have hlen : (xs.take n).length = n := by rw [List.length_take]; omega
      rw [hlen] at hk
      exact hi.unsolo hi0 h1 he (q := ⟨p.ptr, n, p.cap⟩) ⟨rfl, hk⟩
    · intro ht x hxm
      rcases hsafe with rfl | rfl
      · cases ht
      · rw [List.drop_length] at hxm; exact g4 ht x (by simpa using hxm)
  · exact good_of (out_bind (out_mono (copyN_P hi.P ha h2 hx (recommendDown_le (by omega))) (fun _ _ h => h) fun _ h => hi.ofP h) fun s1 _ g =>
      replace_inv hi hi0 h1 he g.1)

theorem step_dataMutWrite {op : Op α} (hi : Inv triv s e) (ha : s.mem a = none) {i idx : Nat} (hi0 : i ≠ 0) {v : α} {xs : List α}
    (he : e[i]? = some (some xs)) (hx : idx < xs.length) :
    Good triv mv op e (e.set i (some (xs.set idx v))) (dataMutWrite triv i idx v a s) := by
  obtain ⟨p, h1, h2⟩ := hi.var he
  obtain ⟨h3, h4⟩ := hi.size h2
  obtain ⟨b, h5, h6⟩ := canMutate_out hi h1 he
  unfold dataMutWrite
  rw [bind_ok (getVar_eq h1), bind_ok h5]
  split
  · rename_i hb
    refine good_of (out_mono (assign_P (v := v) (hi.solo h1 he) (h6 hb) hx (E := fun _ => False)) (fun s' _ h => ?_) fun _ h => h.elim)
    exact hi.unsolo' hi0 h1 he h
  · refine good_of (out_bind (out_mono (copyN_P hi.P ha h2 (k := p.size) (n := p.cap) (by omega) (by omega)) (fun _ _ h => h) fun _ h => hi.ofP h) fun s1 _ g => ?_)
    rw [h3, List.take_length] at g
    have hP : P triv s.vars ((some p, some xs) :: (some ⟨a, xs.length, p.cap⟩, some xs) :: (s.vars.eraseIdx i).zip (e.eraseIdx i)) s1 :=
      g.1.perm ((List.Perm.cons _ (zip_perm h1 he)).trans (List.Perm.swap _ _ _))
    have hu : cnt a ((s.vars.eraseIdx i).zip (e.eraseIdx i)) = 0 := by
      have := cnt_perm (p := a) (zip_perm h1 he)
      rw [g.2, cnt_cons] at this
      omega
    refine out_bind (dec_P hP) fun s2 _ g2 => ?_
    have hs : setVar i (some ⟨a, p.size, p.cap⟩) s2 = .ok { s2 with vars := s2.vars.set i (some ⟨a, p.size, p.cap⟩) } () := rfl
    rw [bind_ok hs]
    have hP' : P triv (s.vars.set i (some ⟨a, xs.length, p.cap⟩)) ((some ⟨a, xs.length, p.cap⟩, some xs) :: (s.vars.eraseIdx i).zip (e.eraseIdx i))
        { s2 with vars := s2.vars.set i (some ⟨a, p.size, p.cap⟩) } := ⟨by simp only [g2.vars, h3], g2.inv⟩
    refine out_mono (assign_P (h := ⟨a, xs.length, p.cap⟩) (v := v) hP' hu hx (E := fun _ => False)) (fun s' _ h => ?_) fun _ h => h.elim
    exact set_inv hi hi0 h1 he h.vars h.inv

/-- `take_mut` in place is not defined for types that must be destroyed (see `C29_take_mut`) -/
def Safe (triv : Bool) (op : Op α) (e : List (Option (List α))) : Prop :=
  triv = true ∨ ∀ i n xs, op = .takeMut i n → val e i = some xs → n = xs.length

theorem step_inv (hi : Inv triv s e) (ha : s.mem a = none) {op : Op α} (hs : spec op e = some e') (hsafe : Safe triv op e) :
    Good triv mv op e e' (exec triv mv a op s) := by
  cases op with
  | fromRange xs => cases hs; exact step_fromRange hi ha xs
  | fromFill n v => cases hs; exact step_fromFill hi ha n v
  | copyCtor i =>
    obtain ⟨xs, hv, rfl⟩ := Option.map_eq_some_iff.mp hs
    exact copyCtor_inv hi (val_get hv).2
  | moveCtor i =>
    obtain ⟨xs, hv, rfl⟩ := Option.map_eq_some_iff.mp hs
    exact step_moveCtor hi (val_get hv).1 (val_get hv).2
  | copyAssign i j =>
    obtain ⟨xs, hv, h⟩ := Option.bind_eq_some_iff.mp hs
    obtain ⟨ys, hw, rfl⟩ := Option.map_eq_some_iff.mp h
    exact step_copyAssign hi (val_get hv).1 (val_get hv).2 (val_get hw).2
  | moveAssign i j =>
    obtain ⟨xs, hv, h⟩ := Option.bind_eq_some_iff.mp hs
    obtain ⟨ys, hw, rfl⟩ := Option.map_eq_some_iff.mp h
    exact step_swap hi (val_get hv).1 (val_get hw).1 (val_get hv).2 (val_get hw).2
  | destroy i =>
    obtain ⟨xs, hv, rfl⟩ := Option.map_eq_some_iff.mp hs
    exact step_destroy hi (val_get hv).1 (val_get hv).2
  | pushBack i v =>
    obtain ⟨xs, hv, h⟩ := Option.bind_eq_some_iff.mp hs
    split at h
    · cases h; exact step_pushBack hi ha (val_get hv).2 (by assumption)
    · cases h
  | pushBackMut i v =>
    obtain ⟨xs, hv, h⟩ := Option.bind_eq_some_iff.mp hs
    split at h
    · cases h; exact step_pushBackMut hi ha (val_get hv).1 (val_get hv).2 (by assumption)
    · cases h
  | set i idx v =>
    obtain ⟨xs, hv, h⟩ := Option.bind_eq_some_iff.mp hs
    split at h
    · cases h; exact step_assoc hi ha (val_get hv).2 (by assumption)
    · cases h
  | setMut i idx v =>
    obtain ⟨xs, hv, h⟩ := Option.bind_eq_some_iff.mp hs
    split at h
    · cases h; exact step_assocMut hi ha (val_get hv).1 (val_get hv).2 (by assumption)
    · cases h
  | update i idx f =>
    obtain ⟨xs, hv, h⟩ := Option.bind_eq_some_iff.mp hs
    obtain ⟨x, hx, rfl⟩ := Option.map_eq_some_iff.mp h
    obtain ⟨hl, rfl⟩ := List.getElem?_eq_some_iff.mp hx
    exact step_update hi ha (val_get hv).2 hl
  | updateMut i idx f =>
    obtain ⟨xs, hv, h⟩ := Option.bind_eq_some_iff.mp hs
    obtain ⟨x, hx, rfl⟩ := Option.map_eq_some_iff.mp h
    obtain ⟨hl, rfl⟩ := List.getElem?_eq_some_iff.mp hx
    exact step_updateMut hi ha (val_get hv).1 (val_get hv).2 hl
  | take i n =>
    obtain ⟨xs, hv, h⟩ := Option.bind_eq_some_iff.mp hs
    split at h
    · cases h; exact step_take hi ha (val_get hv).2 (by assumption)
    · cases h
  | takeMut i n =>
    obtain ⟨xs, hv, h⟩ := Option.bind_eq_some_iff.mp hs
    split at h
    · cases h
      exact step_takeMut hi ha (val_get hv).1 (val_get hv).2 (by assumption) (hsafe.imp id fun h => h i n xs rfl hv)
    · cases h
  | dataMutWrite i idx v =>
    obtain ⟨xs, hv, h⟩ := Option.bind_eq_some_iff.mp hs
    split at h
    · cases h; exact step_dataMutWrite hi ha (val_get hv).1 (val_get hv).2 (by assumption)
    · cases h

end

end Arr
