import Verif.Dv.Iters

/-! `push_back` into a new leaf loses elements if the loop of `goto_fresh_pos_writable_from_clean` makes two rounds: the shift stays that of the first. -/

namespace Dv

variable {T : Type} {B : Nat} {g : Nat → Option T}

theorem descend_null {m : Mem T} {i : Nat} : ∀ {j : Nat} {p : Option Nat}, look B m j p i = some none → descend B m i j p (j * B) = none
  | 0, none, _ | _ + 1, none, _ => by simp [descend]
  | 0, some a, h => by
      simp only [look, Option.bind_eq_some_iff, Option.map_eq_some_iff] at h
      obtain ⟨_, _, _, _, he⟩ := h
      cases he
  | j + 1, some a, h => by
      simp only [look, Option.bind_eq_some_iff] at h
      obtain ⟨ps, hp, q, hq, he⟩ := h
      have := descend_null he
      simp only [descend, hp, hq, Option.bind_some]
      rw [Nat.succ_mul, Nat.add_sub_cancel]
      exact this

theorem Hollow.agree {m m' : Mem T} {t n : Nat} {p : Option Nat} (h : Hollow B m t p) (hg : Good B m) (ha : Agree n m m') (hp : ∀ a, p = some a → a < n) :
    Hollow B m' t p := fun i => by rw [look_agree hg ha i t p hp]; exact h i

theorem Hollow.lt {m : Mem T} {t a : Nat} (h : Hollow B m (t + 1) (some a)) : a < m.length := by
  obtain ⟨ps, hp⟩ := h.kind
  exact inner_lt hp

/-- two rounds of the loop with the wrong shift -/
theorem freshLoop_wrong {m : Mem T} {D : Disp} {depth new : Nat} (h : Up B m D depth 3 new g) (hd : 3 < depth) (hB : 0 < B)
    (hn : blk B 3 new = 1) (hv : ∃ i v, blk B 3 i = 1 ∧ g i = some v) (hz : ∀ i, blk B 2 i = 2 ^ B + 1 → g i = none) (hn4 : blk B 4 new = 0) :
    ∃ m' D', freshLoop B new (3 * B) 2 m D = some (m', D') ∧ Good B m' ∧ Hollow B m' 1 (D' 1) ∧ ∃ a, D' 1 = some a := by
  have h2B : 2 ≤ 2 ^ B := by
    have := Nat.pow_le_pow_right (show 0 < 2 by omega) hB
    simpa using this
  have hdig : ∀ i, blk B 3 i = 1 → dig B i (3 * B) = 1 := fun i hi => by
    rw [dig_eq, ← blk, hi, Nat.mod_eq_of_lt (by omega)]
  obtain ⟨ps, hp⟩ := h.kinds 3 (Nat.le_refl _) hd
  obtain ⟨a, ha, hal⟩ := h.lt (Nat.le_refl _) hd
  have hp' := hp
  rw [ha] at hp'
  have hlook : ∀ i, blk B 3 i = 1 → (ps[1]?.bind fun q => look B m 2 q i) = some (g i) := fun i hi => by
    have := h.full 3 (Nat.le_refl _) hd i (by rw [blk_succ, hi, hn4, Nat.div_eq_of_lt (by omega)])
    rw [ha] at this
    simpa only [look, hp', Option.bind_some, hdig i hi] using this
  obtain ⟨i, v, hi, hv⟩ := hv
  have h1 := hlook i hi
  rw [hv] at h1
  simp only [Option.bind_eq_some_iff] at h1
  obtain ⟨q, hq, hl⟩ := h1
  cases q with
  | none => simp at hl
  | some q =>
      simp only [look, Option.bind_eq_some_iff] at hl
      obtain ⟨cs, hcs, _, _, _⟩ := hl
      have hlen := (h.good.inn hcs).1
      have hc1 : cs[1]? = some cs[1] := List.getElem?_eq_getElem (by omega)
      have hh : Hollow B m 1 cs[1] := by
        refine hollow_of (new := (2 ^ B + 1) * 2 ^ (2 * B)) fun j hj => ?_
        have e : blk B 2 ((2 ^ B + 1) * 2 ^ (2 * B)) = 2 ^ B + 1 := by rw [blk, Nat.mul_div_cancel _ (Nat.two_pow_pos _)]
        have hj : blk B 2 j = 2 ^ B + 1 := hj.trans e
        have hj3 : blk B 3 j = 1 := by
          rw [blk_succ, hj]
          exact Nat.div_eq_of_lt_le (by omega) (by omega)
        have hl := hlook j hj3
        have hd2 : dig B j (2 * B) = 1 := by
          rw [dig_eq, ← blk, hj, Nat.add_mod_left, Nat.mod_eq_of_lt (by omega)]
        simp only [hq, Option.bind_some, look, hcs, hd2, hc1] at hl
        rw [hl, hz j hj]
      simp only [freshLoop, hp, Option.bind_some, hdig new hn, hq, upd_same, hcs, hc1]
      cases hx : cs[1] with
      | none =>
          exact ⟨_, _, rfl, good_empty h.good, by rw [upd_same]; exact fun j => look_empty (inner_some.2 (getElem?_last _ _)) 0 j, _, upd_same _ _ _⟩
      | some r =>
          rw [hx] at hh
          exact ⟨_, _, rfl, h.good, by rw [upd_same]; exact hh, _, upd_same _ _ _⟩

variable [Inhabited T]

theorem push_loses (hB : 0 < B) {m : Mem T} {s : Impl} {l : List T} (hg : Good B m) (h : Rep B m s l) (hl : l.length = 2 ^ (3 * B) + 2 ^ B)
    (hf : s.focus < 2 ^ (3 * B)) (x : T) : ∃ m' s', pushBack B s x m = some (m', s') ∧ s'.size = l.length + 1 ∧ get B s' (2 ^ (3 * B)) m' = none := by
  have h2B : 2 ≤ 2 ^ B := by
    have := Nat.pow_le_pow_right (show 0 < 2 by omega) hB
    simpa using this
  have hB3 : 2 ^ (3 * B) = 2 ^ B * (2 ^ B * 2 ^ B) := by rw [← Nat.pow_add, ← Nat.pow_add]; congr 1; omega
  have hB2 : 2 ^ (2 * B) = 2 ^ B * 2 ^ B := by rw [← Nat.pow_add]; congr 1; omega
  have hB4 : 2 ^ (4 * B) = 2 ^ (3 * B) * 2 ^ B := by rw [← Nat.pow_add]; congr 1; omega
  have hBle : 2 ^ B ≤ 2 ^ (2 * B) := Nat.pow_le_pow_right (by omega) (by omega)
  have hBlt : 2 ^ (2 * B) < 2 ^ (3 * B) := Nat.pow_lt_pow_right (by omega) (by omega)
  have hl0 : l.length ≠ 0 := by omega
  obtain ⟨g, hb⟩ := h.body (by rintro rfl; simp at hl0)
  have hroom := hb.room
  have hd4 : 3 < s.depth := by
    by_contra hle
    have : 2 ^ (s.depth * B) ≤ 2 ^ (3 * B) := Nat.pow_le_pow_right (by omega) (Nat.mul_le_mul_right B (by omega))
    omega
  have hb3 : ∀ j, 2 ^ (3 * B) ≤ j → j < 2 ^ (3 * B) + 2 ^ (3 * B) → blk B 3 j = 1 := fun j h1 h2 => by
    rw [blk]; exact Nat.div_eq_of_lt_le (by omega) (by omega)
  have hb4 : blk B 4 l.length = 0 := by
    rw [blk, Nat.div_eq_of_lt]
    rw [hB4]
    have := Nat.mul_le_mul_left (2 ^ (3 * B)) h2B
    omega
  have hsz : block B s.size = l.length := by
    rw [h.size, block_eq, hl, hB3, show 2 ^ B * (2 ^ B * 2 ^ B) + 2 ^ B = (2 ^ B * 2 ^ B + 1) * 2 ^ B by ring, blk_mul]
  have hdirty : s.dirty = true := by
    cases hd : s.dirty with
    | true => rfl
    | false => have := (hb.clean hd).2; omega
  have hT : Top B 3 s.focus l.length := by
    refine ⟨?_, fun _ => ?_⟩
    · rw [hb4, blk, Nat.div_eq_of_lt]
      rw [hB4]
      have := Nat.mul_le_mul_left (2 ^ (3 * B)) h2B
      omega
    · rw [hb3 l.length (by omega) (by omega), blk, Nat.div_eq_of_lt hf]; omega
  have hk : displayIdx B (s.focus ^^^ l.length) = 3 := (top_displayIdx hB s.focus l.length).unique hT
  obtain ⟨m1, D1, he1, hg1, hl1, hag1, hk1, hF1, hD1, -⟩ := stab_ok (f := s.focus) (s.depth - 1) 1 m s.display (Nat.le_refl _) hg
    (by rw [show 1 + (s.depth - 1) = s.depth by omega]; exact hb.kinds)
    (fun t ht => by obtain rfl : t = 0 := by omega
                    exact (hb.shows 0 hb.depth).full) (fun t _ ht => hb.shows t (by omega))
  rw [show 1 + (s.depth - 1) = s.depth by omega] at hk1 hF1
  rw [Nat.one_mul] at he1
  have hup : Up B m1 D1 s.depth 3 l.length g :=
    ⟨hg1, fun u hu hud i hi => hF1 u hud i (hi.trans (blk_up hT.1 (by omega)).symm), fun u hu hud => hk1.inn u (by omega) hud⟩
  obtain ⟨m2, D2, he2, hg2, hh2, a, ha⟩ := freshLoop_wrong hup hd4 hB (hb3 _ (by omega) (by omega))
    ⟨2 ^ (3 * B), _, hb3 _ (by omega) (by omega), hb.vals _ (by omega)⟩
    (fun i hi => hb.nulls i (by
      have h1 : blk B 1 i / 2 ^ B = 2 ^ B + 1 := by rw [← blk_succ]; exact hi
      have h2 : (2 ^ B + 1) * 2 ^ B ≤ blk B 1 i := by rw [← h1]; exact Nat.div_mul_le_self _ _
      have h3 := Nat.mul_le_mul_right (2 ^ B) h2
      rw [hl, hB3]
      refine Nat.le_trans ?_ h3
      have h4 : 1 * 2 ^ B ≤ 2 ^ B * 2 ^ B := Nat.mul_le_mul_right _ (by omega)
      rw [show (2 ^ B + 1) * 2 ^ B * 2 ^ B = 2 ^ B * (2 ^ B * 2 ^ B) + 2 ^ B * 2 ^ B by ring]
      omega)) hb4
  have hal := (by rw [ha] at hh2; exact hh2.lt : a < m2.length)
  have hlast : leaf (m2 ++ [.leaf (List.replicate (2 ^ B) (default : T))]) (some m2.length) = some _ := leaf_some.2 (getElem?_last _ _)
  have hag2 := agree_append m2 [.leaf (List.replicate (2 ^ B) (default : T))]
  have hset := setElem_eq (i := dig B l.length 0) x hlast (by rw [List.length_replicate]; exact dig_lt _ _)
  refine ⟨(m2 ++ [Node.leaf (List.replicate (2 ^ B) (default : T))]).set m2.length (.leaf ((List.replicate (2 ^ B) default).set (dig B l.length 0) x)),
    ⟨s.size + 1, l.length, true, s.depth, upd D2 0 (some m2.length)⟩, ?_, by rw [h.size], ?_⟩
  · unfold pushBack
    rw [if_pos (by rw [h.size]; exact hl0), hsz, if_neg (by simp [h.size])]
    simp only [gotoFresh, hdirty, if_true, gotoFreshFromDirty, stabilize, he1, Option.bind_some, gotoFreshFromClean, hk,
      if_pos (show 0 < 3 by omega), newRoot, if_neg (show ¬ 3 = s.depth by omega), he2, Option.map_some, upd_same, h.size]
    rw [hset]
    rfl
  · have hT2 : Top B 1 (2 ^ (3 * B)) l.length := by
      refine ⟨?_, fun _ => ?_⟩
      · rw [blk, blk, hl, hB2, hB3, Nat.mul_div_cancel _ (by positivity)]
        symm
        refine Nat.div_eq_of_lt_le (by omega) ?_
        rw [Nat.succ_mul]
        have : 1 * 2 ^ B < 2 ^ B * 2 ^ B := Nat.mul_lt_mul_of_pos_right (by omega) (by omega)
        omega
      · rw [hl, hB3, show 2 ^ B * (2 ^ B * 2 ^ B) = (2 ^ B * 2 ^ B) * 2 ^ B by ring, ← Nat.succ_mul, blk_mul, blk_mul]
        omega
    have hk2 : displayIdx B (2 ^ (3 * B) ^^^ l.length) = 1 := (top_displayIdx hB _ _).unique hT2
    unfold get getElem
    simp only [hk2]
    refine descend_null ?_
    rw [upd_ne _ _ (by omega), ha]
    rw [ha] at hh2
    have h1 := hh2.agree hg2 hag2 (fun b hb => by cases hb; exact hal)
    exact (h1.agree (n := m2.length) (hg2.append (by simp [NodeOk])) (agree_set _ _ _) (fun b hb => by cases hb; exact hal)) _

end Dv
