import Verif.Dv.Ops

/-! Iterators of `dvektor`. -/

namespace Dv

variable {T : Type} {B : Nat} {g : Nat → Option T}

/-- an iterator at position `i` of a vector with the elements of `l` -/
structure At (B : Nat) (m : Mem T) (it : Iter) (l : List T) (g : Nat → Option T) (i : Nat) : Prop where
  good : Good B m
  kinds : Kinds m it.display it.depth
  depth : 0 < it.depth
  full : ∀ t, t < it.depth → Full B m it.display t it.base g
  vals : ∀ j (h : j < l.length), g j = some l[j]
  nulls : ∀ j, l.length ≤ blk B 1 j * 2 ^ B → g j = none
  room : l.length ≤ 2 ^ (it.depth * B)
  tail : ∀ u, it.depth ≤ u → it.display u = none
  pos : it.i = i
  base : it.base = blk B 1 it.base * 2 ^ B
  inb : it.base < l.length
  lo : it.base ≤ i
  hi : i ≤ it.base + 2 ^ B
  le : i ≤ l.length
  curr : it.curr = i - it.base

theorem At.agree {m m' : Mem T} {it : Iter} {l : List T} {i : Nat} (h : At B m it l g i) (hg : Good B m') (ha : Agree m.length m m') : At B m' it l g i := by
  have hlt : ∀ t, t < it.depth → ∀ b, it.display t = some b → b < m.length := fun t ht b hb => by
    obtain ⟨c, hc, hcl⟩ := h.kinds.lt ht
    rw [hc] at hb; cases hb; exact hcl
  refine { h with good := hg, kinds := ⟨?_, fun t h0 ht => ?_⟩, full := fun t ht => (h.full t ht).congr h.good ha (hlt t ht) rfl rfl }
  · rw [leaf_agree ha (hlt 0 h.depth)]; exact h.kinds.zero
  · rw [inner_agree ha (hlt t ht)]; exact h.kinds.inn t h0 ht

/-- `goto_pos`, from level `d` down -/
theorem gotoPosLoop_ok {m : Mem T} {depth idx : Nat} {v : T} (hv : g idx = some v) : ∀ (d : Nat) (D : Disp), d < depth →
    (∀ u, d ≤ u → u < depth → Full B m D u idx g) → (∀ u, d ≤ u → u < depth → if u = 0 then ∃ xs, leaf m (D u) = some xs else ∃ ps, inner m (D u) = some ps) →
    ∃ D', gotoPosLoop B m idx d (d * B) D = some D' ∧ (∀ u, u < depth → Full B m D' u idx g) ∧ Kinds m D' depth ∧ ∀ u, d ≤ u → D' u = D u
  | 0, D, hd, hF, hk => by
      refine ⟨D, rfl, fun u hu => hF u (by omega) hu, ⟨by simpa using hk 0 (Nat.le_refl _) hd, fun t h0 ht => ?_⟩, fun _ _ => rfl⟩
      have := hk t (by omega) ht
      rwa [if_neg (by omega)] at this
  | d + 1, D, hd, hF, hk => by
      have hp := hk (d + 1) (Nat.le_refl _) hd
      rw [if_neg (by omega)] at hp
      obtain ⟨ps, hps⟩ := hp
      cases ha : D (d + 1) with
      | none => simp [ha] at hps
      | some a =>
          have hps' := hps
          rw [ha] at hps'
          have hlook : ∀ i, blk B (d + 1) i = blk B (d + 1) idx → (ps[dig B idx ((d + 1) * B)]?.bind fun q => look B m d q i) = some (g i) := fun i hi => by
            have := hF (d + 1) (Nat.le_refl _) hd i (by rw [blk_succ, blk_succ (d + 1), hi])
            rw [ha] at this
            simpa only [look, hps', Option.bind_some, dig_congr hi] using this
          have hq := hlook idx rfl
          rw [hv] at hq
          simp only [Option.bind_eq_some_iff] at hq
          obtain ⟨q, hq, hl⟩ := hq
          cases q with
          | none => simp at hl
          | some q =>
              obtain ⟨D', he, hF', hk', hD'⟩ := gotoPosLoop_ok (depth := depth) hv d (upd D d (some q)) (by omega) (fun u hu hud => by
                by_cases e : u = d
                · subst e
                  intro i hi
                  rw [upd_same]
                  simpa only [hq, Option.bind_some] using hlook i hi
                · intro i hi
                  rw [upd_ne _ _ e]
                  exact hF u (by omega) hud i hi) (fun u hu hud => by
                by_cases e : u = d
                · subst e
                  rw [upd_same]
                  cases u with
                  | zero =>
                      simp only [look, Option.bind_eq_some_iff] at hl
                      obtain ⟨xs, hx, _⟩ := hl
                      exact ⟨xs, hx⟩
                  | succ u =>
                      simp only [look, Option.bind_eq_some_iff] at hl
                      obtain ⟨xs, hx, _⟩ := hl
                      exact ⟨xs, hx⟩
                · rw [upd_ne _ _ e]; exact hk u (by omega) hud)
              refine ⟨D', ?_, hF', hk', fun u hu => by rw [hD' u (by omega), upd_ne _ _ (show u ≠ d by omega)]⟩
              simp only [gotoPosLoop, hps, Option.bind_some, hq]
              rw [Nat.succ_mul, Nat.add_sub_cancel]
              exact he

theorem top_lt {depth i f k : Nat} (h : Top B k i f) (hi : i < 2 ^ (depth * B)) (hf : f < 2 ^ (depth * B)) (hd : 0 < depth) : k < depth := by
  rcases Nat.lt_or_ge k depth with hl | hl
  · exact hl
  · have hle : 2 ^ (depth * B) ≤ 2 ^ (k * B) := Nat.pow_le_pow_right (by omega) (Nat.mul_le_mul_right B hl)
    exact absurd (by rw [blk, blk, Nat.div_eq_of_lt (by omega), Nat.div_eq_of_lt (by omega)]) (h.2 (by omega))

/-- `goto_pos` with nodes that show everything -/
theorem gotoPos_ok (hB : 0 < B) {m : Mem T} {D : Disp} {depth f idx : Nat} {v : T} (hv : g idx = some v) (hd : 0 < depth)
    (hF : ∀ t, t < depth → Full B m D t f g) (hk : Kinds m D depth) (hf : f < 2 ^ (depth * B)) (hi : idx < 2 ^ (depth * B)) (xr : Nat) (hx : xr = idx ^^^ f) :
    ∃ D', gotoPos B m idx xr D = some D' ∧ (∀ u, u < depth → Full B m D' u idx g) ∧ Kinds m D' depth ∧ ∀ u, depth ≤ u → D' u = D u := by
  subst hx
  have htop := top_displayIdx hB idx f
  have hlt := top_lt htop hi hf hd
  obtain ⟨D', he, hF', hk', hD'⟩ := gotoPosLoop_ok (m := m) hv (displayIdx B (idx ^^^ f)) D hlt
    (fun u hu hud i hi => hF u hud i (hi.trans (blk_up htop.1 (by omega)))) (fun u hu hud => by
      by_cases e : u = 0
      · subst e; rw [if_pos rfl]; exact hk.zero
      · rw [if_neg e]; exact hk.inn u (by omega) hud)
  exact ⟨D', he, hF', hk', fun u hu => hD' u (by omega)⟩

theorem blk_mul (c : Nat) : blk B 1 (c * 2 ^ B) = c := by simp [blk, Nat.mul_div_cancel _ (Nat.two_pow_pos B)]
theorem blk_mul_le (j : Nat) : blk B 1 j * 2 ^ B ≤ j := by simpa [blk] using Nat.div_mul_le_self j (2 ^ B)
theorem lt_blk (j : Nat) : j < blk B 1 j * 2 ^ B + 2 ^ B := by
  have := Nat.lt_div_mul_add (Nat.two_pow_pos B) (a := j)
  simpa [blk] using this

theorem leafPos_ok {m : Mem T} {D : Disp} {depth k : Nat} (hg : Good B m) (hk : Kinds m D depth) (hd : 0 < depth) (h : k ≤ 2 ^ B) : leafPos m D k = some k := by
  obtain ⟨xs, hx⟩ := hk.zero
  obtain ⟨a, ha, _⟩ := hk.lt hd
  have hl := hg.lf (by rw [ha] at hx; exact hx)
  simp [leafPos, hx, hl, h]

/-- an iterator at the block `base` -/
theorem iterAt_ok (hB : 0 < B) {m : Mem T} {s : Impl} {l : List T} (hg : Good B m) (h : Rep B m s l) (hl : l ≠ []) {i base : Nat}
    (hb : base = blk B 1 base * 2 ^ B) (hbl : base < l.length) (hlo : base ≤ i) (hhi : i ≤ base + 2 ^ B) (hle : i ≤ l.length) :
    ∃ m' it g, iterAt B s i base m = some (m', it) ∧ Good B m' ∧ Agree m.length m m' ∧ At B m' it l g i := by
  obtain ⟨g, hbd⟩ := h.body hl
  have hdp := hbd.depth
  have hroom := hbd.room
  have hfl := hbd.focus
  have hst : ∃ m1 D1, (if s.dirty then stabilize B s.depth s.focus m s.display else some (m, s.display)) = some (m1, D1) ∧ Good B m1 ∧ m.length ≤ m1.length ∧
      Agree m.length m m1 ∧ Kinds m1 D1 s.depth ∧ (∀ t, t < s.depth → Full B m1 D1 t s.focus g) ∧ ∀ u, s.depth ≤ u → D1 u = s.display u := by
    cases hd : s.dirty with
    | true =>
        obtain ⟨m1, D1, he1, hg1, hl1, hag1, hk1, hF1, hD1, -⟩ := stab_ok (f := s.focus) (s.depth - 1) 1 m s.display (Nat.le_refl _) hg
          (by rw [show 1 + (s.depth - 1) = s.depth by omega]; exact hbd.kinds)
          (fun t ht => by obtain rfl : t = 0 := by omega
                          exact (hbd.shows 0 hdp).full) (fun t _ ht => hbd.shows t (by omega))
        rw [show 1 + (s.depth - 1) = s.depth by omega] at hk1 hF1 hD1
        rw [Nat.one_mul] at he1
        exact ⟨m1, D1, he1, hg1, hl1, hag1, hk1, hF1, fun u hu => hD1 u (by omega)⟩
    | false =>
        obtain ⟨h1, _⟩ := hbd.clean hd
        refine ⟨m, s.display, rfl, hg, Nat.le_refl _, Agree.refl _ _, hbd.kinds, fun t ht => ?_, fun _ _ => rfl⟩
        obtain rfl : t = 0 := by omega
        exact (hbd.shows 0 hdp).full
  obtain ⟨m1, D1, he1, hg1, hl1, hag1, hk1, hF1, hD1⟩ := hst
  obtain ⟨D2, he2, hF2, hk2, hD2⟩ := gotoPos_ok hB (hbd.vals base hbl) hdp hF1 hk1 (by omega) (by omega) _ rfl
  refine ⟨m1, ⟨s.depth, D2, i, base, i - base⟩, g, ?_, hg1, hag1, hg1, hk2, hdp, hF2, hbd.vals, hbd.nulls, hroom,
    fun u hu => by simp only at hu ⊢; rw [hD2 u hu, hD1 u hu]; exact hbd.tail u hu, rfl, hb, hbl, hlo, hhi, hle, rfl⟩
  unfold iterAt
  rw [he1]
  simp only [Option.bind_some, he2, leafPos_ok hg1 hk2 hdp (show i - base ≤ 2 ^ B by omega), Option.map_some]

theorem begin_ok (hB : 0 < B) {m : Mem T} {s : Impl} {l : List T} (hg : Good B m) (h : Rep B m s l) (hl : l ≠ []) :
    ∃ m' it g, begin B s m = some (m', it) ∧ Good B m' ∧ Agree m.length m m' ∧ At B m' it l g 0 := by
  have : 0 < l.length := List.length_pos_iff.2 hl
  exact iterAt_ok hB hg h hl (by simp [blk]) this (Nat.le_refl _) (Nat.zero_le _) (Nat.zero_le _)

theorem fin_ok (hB : 0 < B) {m : Mem T} {s : Impl} {l : List T} (hg : Good B m) (h : Rep B m s l) (hl : l ≠ []) (h64 : l.length < 2 ^ 64) :
    ∃ m' it g, fin B s m = some (m', it) ∧ Good B m' ∧ Agree m.length m m' ∧ At B m' it l g l.length := by
  have h0 : 0 < l.length := List.length_pos_iff.2 hl
  have e : (l.length + (2 ^ 64 - 1)) % 2 ^ 64 = l.length - 1 := by omega
  unfold fin
  rw [h.size, e, block_eq]
  have h1 := blk_mul_le (B := B) (l.length - 1)
  have h2 := lt_blk (B := B) (l.length - 1)
  exact iterAt_ok hB hg h hl (by rw [blk_mul]) (by omega) (by omega) (by omega) (Nat.le_refl _)

theorem deref_ok {m : Mem T} {it : Iter} {l : List T} {i : Nat} (h : At B m it l g i) (hi : i < l.length) (hb : i < it.base + 2 ^ B) :
    deref m it = some l[i] := by
  have hf : look B m 0 (it.display 0) i = some (g i) := h.full 0 h.depth i (by
    have h1 := h.lo
    rw [h.base] at h1 hb
    rw [Nat.zero_add]
    conv_rhs => rw [h.base, blk_mul]
    have h2 := blk_mul_le (B := B) i
    have h3 := lt_blk (B := B) i
    refine Nat.le_antisymm ?_ ?_
    · refine Nat.le_of_lt_succ (Nat.lt_of_mul_lt_mul_right (a := 2 ^ B) ?_)
      rw [Nat.succ_mul]; omega
    · refine Nat.le_of_lt_succ (Nat.lt_of_mul_lt_mul_right (a := 2 ^ B) ?_)
      rw [Nat.succ_mul]; omega)
  rw [h.vals i hi] at hf
  cases hd : it.display 0 with
  | none => rw [hd] at hf; simp at hf
  | some a =>
      rw [hd] at hf
      simp only [look, Option.bind_eq_some_iff, Option.map_eq_some_iff] at hf
      obtain ⟨xs, hx, v, hv, e⟩ := hf
      cases e
      have e : dig B i 0 = i - it.base := by
        have h1 := blk_dig (B := B) 0 i
        have h2 := dig_lt (B := B) i 0
        have h3 := h.lo
        rw [blk_zero, Nat.zero_mul, Nat.zero_add] at h1
        have hc : it.base = 2 ^ B * blk B 1 i := by
          have h4 := h.base
          rw [h4] at hb h3
          have : blk B 1 it.base = blk B 1 i := by
            have h5 := blk_mul_le (B := B) i
            have h6 := lt_blk (B := B) i
            refine Nat.le_antisymm ?_ ?_
            · refine Nat.le_of_lt_succ (Nat.lt_of_mul_lt_mul_right (a := 2 ^ B) ?_)
              rw [Nat.succ_mul]; omega
            · refine Nat.le_of_lt_succ (Nat.lt_of_mul_lt_mul_right (a := 2 ^ B) ?_)
              rw [Nat.succ_mul]; omega
          rw [h4, this, Nat.mul_comm]
        omega
      rw [e] at hv
      simp [deref, hd, hx, h.curr, hv]

/-- the carry: going to the next block, the digits below the one that changes become 0 -/
theorem carry {base k : Nat} (hb : base = blk B 1 base * 2 ^ B) (ht : Top B k base (base + 2 ^ B)) (hk : 0 < k) :
    base + 2 ^ B = blk B k (base + 2 ^ B) * 2 ^ (k * B) := by
  refine Nat.le_antisymm ?_ (Nat.div_mul_le_self _ _)
  by_contra hlt
  rw [Nat.not_le] at hlt
  obtain ⟨u, rfl⟩ : ∃ u, k = u + 1 := ⟨k - 1, by omega⟩
  have e : blk B (u + 1) (base + 2 ^ B) * 2 ^ ((u + 1) * B) = (blk B (u + 1) (base + 2 ^ B) * 2 ^ (u * B)) * 2 ^ B := by
    rw [Nat.mul_assoc, ← Nat.pow_add, ← Nat.succ_mul]
  have h1 : blk B (u + 1) (base + 2 ^ B) * 2 ^ (u * B) < blk B 1 base + 1 := by
    rw [e] at hlt
    refine Nat.lt_of_mul_lt_mul_right (a := 2 ^ B) (Nat.lt_of_lt_of_eq hlt ?_)
    rw [Nat.succ_mul, ← hb]
  have h3 : blk B (u + 1) (base + 2 ^ B) * 2 ^ ((u + 1) * B) ≤ base := by
    rw [e]
    exact Nat.le_trans (Nat.mul_le_mul_right _ (Nat.le_of_lt_succ h1)) (Nat.le_of_eq hb.symm)
  have h4 : blk B (u + 1) (base + 2 ^ B) ≤ blk B (u + 1) base := (Nat.le_div_iff_mul_le (Nat.two_pow_pos _)).2 h3
  have h5 : blk B (u + 1) base ≤ blk B (u + 1) (base + 2 ^ B) := Nat.div_le_div_right (Nat.le_add_right _ _)
  exact ht.2 (by omega) (by omega)

theorem dig_carry {c k t : Nat} (h : t < k) : dig B (c * 2 ^ (k * B)) (t * B) = 0 := by
  have := dig_join (B := B) c 0 k t h
  rw [Nat.zero_mod, Nat.add_zero] at this
  rw [this, dig_eq]; simp

theorem nextLoop_eq {m : Mem T} {idx : Nat} : ∀ (d : Nat) (D : Disp), (∀ t, t ≤ d → dig B idx (t * B) = 0) → nextLoop m d D = gotoPosLoop B m idx d (d * B) D
  | 0, _, _ => rfl
  | d + 1, D, h => by
      simp only [nextLoop, gotoPosLoop, h (d + 1) (Nat.le_refl _)]
      congr 1; funext ps; congr 1; funext q
      rw [Nat.succ_mul, Nat.add_sub_cancel]
      exact nextLoop_eq d _ fun t ht => h t (by omega)

/-- `goto_next_block_start` is `goto_pos` for the next block -/
theorem gotoNext_eq (hB : 0 < B) {m : Mem T} {base : Nat} (D : Disp) (hb : base = blk B 1 base * 2 ^ B) :
    gotoNext B m (base + 2 ^ B) (base ^^^ (base + 2 ^ B)) D = gotoPos B m (base + 2 ^ B) (base ^^^ (base + 2 ^ B)) D := by
  have ht := top_displayIdx hB base (base + 2 ^ B)
  unfold gotoNext gotoPos
  cases hk : displayIdx B (base ^^^ (base + 2 ^ B)) with
  | zero => rfl
  | succ k =>
      rw [hk] at ht
      have hc := carry hb ht (by omega)
      simp only [gotoPosLoop]
      congr 1; funext ps; congr 1; funext q
      rw [Nat.succ_mul, Nat.add_sub_cancel]
      refine nextLoop_eq k _ fun t ht => ?_
      rw [hc]
      exact dig_carry (by omega)

theorem incr_ok (hB : 0 < B) {m : Mem T} {it : Iter} {l : List T} {i : Nat} (h : At B m it l g i) (hb : i < it.base + 2 ^ B) (hi : i < l.length)
    (hc : i + 1 < l.length ∨ l.length % 2 ^ B ≠ 0) : ∃ it', incr B m it = some it' ∧ At B m it' l g (i + 1) ∧ (i + 1 < l.length → i + 1 < it'.base + 2 ^ B) := by
  have hlo := h.lo
  unfold incr
  rw [h.pos]
  by_cases hx : i + 1 - it.base < 2 ^ B
  · rw [if_pos hx]
    refine ⟨_, rfl, { h with pos := rfl, lo := (by simp only; omega), hi := (by simp only; omega), le := (by omega), curr := (by simp only [h.curr]; omega) }, fun _ => by simp only; omega⟩
  · rw [if_neg hx, gotoNext_eq hB _ h.base]
    have e : i + 1 = it.base + 2 ^ B := by omega
    have hl : it.base + 2 ^ B < l.length := by
      rcases hc with hc | hc
      · omega
      · rcases Nat.lt_or_eq_of_le (show it.base + 2 ^ B ≤ l.length by omega) with hl | hl
        · exact hl
        · exfalso; apply hc
          rw [← hl, h.base, ← Nat.succ_mul, Nat.mul_mod_left]
    have hr := h.room
    obtain ⟨D', he, hF', hk', hD'⟩ := gotoPos_ok hB (h.vals _ hl) h.depth h.full h.kinds (by omega) (by omega) (it.base ^^^ (it.base + 2 ^ B)) (Nat.xor_comm _ _)
    rw [he]
    simp only [Option.bind_some, leafPos_ok h.good hk' h.depth (Nat.zero_le _), Option.map_some]
    have hp := Nat.two_pow_pos B
    refine ⟨_, rfl, { h with kinds := hk', full := hF', tail := (fun u hu => by simp only at hu ⊢; rw [hD' u hu]; exact h.tail u hu), pos := (by simp only), base := ?_, inb := hl, lo := (by simp only; omega), hi := (by simp only; omega), le := (by omega), curr := (by simp only; omega) }, fun _ => by simp only; omega⟩
    simp only
    have : it.base + 2 ^ B = (blk B 1 it.base + 1) * 2 ^ B := by rw [Nat.succ_mul, ← h.base]
    rw [this, blk_mul]

/-- moving past the last element is undefined behaviour if the size is a multiple of the size of a leaf -/
theorem incr_ub (hB : 0 < B) {m : Mem T} {it : Iter} {l : List T} {i : Nat} (h : At B m it l g i) (hb : i < it.base + 2 ^ B)
    (hi : i + 1 = l.length) (hc : l.length % 2 ^ B = 0) : incr B m it = none := by
  have hlo := h.lo
  have hroom := h.room
  have hd := h.depth
  have e : it.base + 2 ^ B = l.length := by
    have h1 := h.base
    have h2 : l.length = l.length / 2 ^ B * 2 ^ B := by
      have := Nat.div_add_mod l.length (2 ^ B)
      rw [hc, Nat.add_zero, Nat.mul_comm] at this
      exact this.symm
    have h3 : blk B 1 it.base < l.length / 2 ^ B := Nat.lt_of_mul_lt_mul_right (a := 2 ^ B) (by rw [← h1, ← h2]; exact h.inb)
    have h4 : (blk B 1 it.base + 1) * 2 ^ B ≤ l.length / 2 ^ B * 2 ^ B := Nat.mul_le_mul_right _ h3
    rw [Nat.succ_mul] at h4
    omega
  unfold incr
  rw [h.pos, if_neg (by omega), gotoNext_eq hB _ h.base, e]
  have ht := top_displayIdx hB it.base l.length
  have hnone : ∀ (d : Nat) (D : Disp), D d = none → (gotoPosLoop B m l.length d (d * B) D).bind (fun D => leafPos m D 0) = none := fun d D hn => by
    cases d with
    | zero => simp [gotoPosLoop, leafPos, hn]
    | succ d => simp [gotoPosLoop, hn]
  have hz : ∀ j, l.length ≤ j → g j = none := fun j hj => h.nulls j (by
    rw [← e, h.base, ← Nat.succ_mul]
    refine Nat.mul_le_mul_right _ ?_
    have := Nat.div_le_div_right (c := 2 ^ B) hj
    rw [← e, h.base, ← Nat.succ_mul, Nat.mul_div_cancel _ (Nat.two_pow_pos B)] at this
    simpa [blk] using this)
  have key : (gotoPos B m l.length (it.base ^^^ l.length) it.display).bind (fun D => leafPos m D 0) = none := by
    unfold gotoPos
    generalize displayIdx B (it.base ^^^ l.length) = k at ht
    rcases Nat.eq_zero_or_pos k with rfl | hk0
    · exfalso
      have := ht.1
      rw [← e, Nat.zero_add, show it.base + 2 ^ B = (blk B 1 it.base + 1) * 2 ^ B by rw [Nat.succ_mul, ← h.base], blk_mul] at this
      omega
    rcases Nat.lt_or_ge k it.depth with hkd | hkd
    · -- on the way there is a null pointer
      have hcar : l.length = blk B k l.length * 2 ^ (k * B) := by
        have := carry h.base (by rw [e]; exact ht) hk0
        rwa [e] at this
      have hfull : ∀ j, blk B k j = blk B k l.length → look B m k (it.display k) j = some none := fun j hj => by
        rw [h.full k hkd j ((blk_up hj (by omega)).trans ht.1.symm), hz j (by
          rw [hcar, ← hj]; exact Nat.div_mul_le_self _ _)]
      have hgen : ∀ (d : Nat) (D : Disp), look B m d (D d) l.length = some none → (gotoPosLoop B m l.length d (d * B) D).bind (fun D => leafPos m D 0) = none := by
        intro d
        induction d with
        | zero =>
            intro D hl
            cases hD : D 0 with
            | none => exact hnone 0 D hD
            | some a =>
                rw [hD] at hl
                simp only [look, Option.bind_eq_some_iff, Option.map_eq_some_iff] at hl
                obtain ⟨_, _, _, _, h⟩ := hl
                cases h
        | succ d ih =>
            intro D hl
            cases hD : D (d + 1) with
            | none => exact hnone _ D hD
            | some a =>
                rw [hD] at hl
                simp only [look, Option.bind_eq_some_iff] at hl
                obtain ⟨ps, hp, q, hq, hl⟩ := hl
                simp only [gotoPosLoop, hD, hp, Option.bind_some, hq]
                rw [Nat.succ_mul, Nat.add_sub_cancel]
                exact ih _ (by rw [upd_same]; exact hl)
      exact hgen k it.display (hfull _ rfl)
    · exact hnone k it.display (h.tail k hkd)
  cases hp : gotoPos B m l.length (it.base ^^^ l.length) it.display with
  | none => rfl
  | some D =>
      rw [hp] at key
      simp only [Option.bind_some] at key ⊢
      rw [key]; rfl

theorem decr_ok (hB : 0 < B) {m : Mem T} {it : Iter} {l : List T} {i : Nat} (h : At B m it l g (i + 1)) :
    ∃ it', decr B m it = some it' ∧ At B m it' l g i ∧ i < it'.base + 2 ^ B := by
  have hp := h.pos
  have hcur := h.curr
  have hlo := h.lo
  have hhi := h.hi
  have hle := h.le
  have hr := h.room
  have hinb := h.inb
  unfold decr
  rw [if_neg (by omega)]
  by_cases hx : it.base ≤ it.i - 1
  · rw [if_pos hx, if_neg (by omega)]
    exact ⟨_, rfl, { h with pos := (by simp only; omega), lo := (by simp only; omega), hi := (by simp only; omega), le := (by omega), curr := (by simp only; omega) }, by simp only; omega⟩
  · rw [if_neg hx]
    have e : it.base = i + 1 := by omega
    have h2 := Nat.two_pow_pos B
    have hb := h.base
    have hc : 1 ≤ blk B 1 it.base := by
      rcases Nat.eq_zero_or_pos (blk B 1 it.base) with h0 | h0
      · rw [h0] at hb; omega
      · exact h0
    have hge : 2 ^ B ≤ it.base := by
      rw [hb]
      have := Nat.mul_le_mul_right (2 ^ B) hc
      omega
    obtain ⟨D', he, hF', hk', hD'⟩ := gotoPos_ok hB (h.vals (it.base - 2 ^ B) (by omega)) h.depth h.full h.kinds (by omega) (by omega)
      (it.base ^^^ (it.base - 2 ^ B)) (Nat.xor_comm _ _)
    obtain ⟨xs, hxs⟩ := hk'.zero
    obtain ⟨a, ha, _⟩ := hk'.lt h.depth
    have hlen := h.good.lf (by rw [ha] at hxs; exact hxs)
    rw [he]
    simp only [Option.bind_some, hxs, Option.map_some, hlen]
    refine ⟨_, rfl, { h with kinds := hk', full := hF', tail := (fun u hu => by simp only at hu ⊢; rw [hD' u hu]; exact h.tail u hu), pos := (by simp only; omega), base := ?_, inb := (by simp only; omega), lo := (by simp only; omega), hi := (by simp only; omega), le := (by omega), curr := (by simp only; omega) }, by simp only; omega⟩
    simp only
    have : it.base - 2 ^ B = (blk B 1 it.base - 1) * 2 ^ B := by rw [Nat.sub_mul, Nat.one_mul, ← hb]
    rw [this, blk_mul]

theorem advance_ok (hB : 0 < B) {m : Mem T} {it : Iter} {l : List T} {i j : Nat} (h : At B m it l g i) (hj : j < l.length ∨ j = l.length ∧ l.length % 2 ^ B ≠ 0)
    (h64 : l.length < 2 ^ 63) (hB6 : B < 63) : ∃ it', advance B m it j = some it' ∧ At B m it' l g j ∧ (j < l.length → j < it'.base + 2 ^ B) := by
  have hp := h.pos
  have hcur := h.curr
  have hlo := h.lo
  have hhi := h.hi
  have hle := h.le
  have hr := h.room
  have hinb := h.inb
  have h2 := Nat.two_pow_pos B
  have h3 : 2 ^ B < 2 ^ 63 := Nat.pow_lt_pow_right (by omega) hB6
  unfold advance
  by_cases hx : j ≤ it.base ∧ (j + 2 ^ 64 - it.base) % 2 ^ 64 < 2 ^ B
  · rw [if_pos hx, if_pos (by omega)]
    have e : j = it.base := by omega
    exact ⟨_, rfl, { h with pos := (by simp only), lo := (by simp only; omega), hi := (by simp only; omega), le := (by omega), curr := (by simp only; omega) }, fun _ => by simp only; omega⟩
  · rw [if_neg hx]
    have h4 := blk_mul_le (B := B) j
    have h5 := lt_blk (B := B) j
    have hjl : blk B 1 j * 2 ^ B < l.length := by
      rcases hj with hj | ⟨rfl, hj⟩
      · omega
      · rcases Nat.lt_or_eq_of_le h4 with h6 | h6
        · exact h6
        · exfalso; apply hj
          rw [← h6]; exact Nat.mul_mod_left _ _
    obtain ⟨D', he, hF', hk', hD'⟩ := gotoPos_ok hB (h.vals _ hjl) h.depth h.full h.kinds (by omega) (by omega)
      (it.base ^^^ (blk B 1 j * 2 ^ B)) (Nat.xor_comm _ _)
    rw [block_eq, he]
    simp only [Option.bind_some, leafPos_ok h.good hk' h.depth (show j - blk B 1 j * 2 ^ B ≤ 2 ^ B by omega), Option.map_some]
    exact ⟨_, rfl, { h with kinds := hk', full := hF', tail := (fun u hu => by simp only at hu ⊢; rw [hD' u hu]; exact h.tail u hu), pos := (by simp only), base := (by simp only [blk_mul]), inb := hjl, lo := (by simp only; omega), hi := (by simp only; omega), le := (by omega), curr := (by simp only) }, fun _ => by simp only; omega⟩

end Dv
