import Verif.Dv.Moves
import Mathlib.Tactic.Ring

/-! Moving the display to a position in a new leaf. -/

namespace Dv

variable {T : Type} {B : Nat} {g : Nat → Option T}

/-- the state in which all nodes from level `t` up show everything on the way to `new` -/
structure Up (B : Nat) (m : Mem T) (D : Disp) (depth t new : Nat) (g : Nat → Option T) : Prop where
  good : Good B m
  full : ∀ u, t ≤ u → u < depth → Full B m D u new g
  kinds : ∀ u, t ≤ u → u < depth → ∃ ps, inner m (D u) = some ps

theorem Up.lt {m : Mem T} {D : Disp} {depth t new : Nat} (h : Up B m D depth t new g) {u : Nat} (hu : t ≤ u) (hd : u < depth) :
    ∃ a, D u = some a ∧ a < m.length := by
  obtain ⟨ps, hp⟩ := h.kinds u hu hd
  cases e : D u with
  | none => simp [e] at hp
  | some a => rw [e] at hp; exact ⟨a, rfl, inner_lt hp⟩

/-- a step to a node that is there -/
theorem Up.child {m : Mem T} {D : Disp} {depth t new q : Nat} (h : Up B m D depth (t + 2) new g) (hd : t + 2 < depth) {ps : List (Option Nat)}
    (hp : inner m (D (t + 2)) = some ps) (hq : ps[dig B new ((t + 2) * B)]? = some (some q)) :
    Up B m (upd D (t + 1) (some q)) depth (t + 1) new g := by
  obtain ⟨a, ha, hal⟩ := h.lt (Nat.le_refl _) hd
  have hlook : ∀ i, blk B (t + 2) i = blk B (t + 2) new → look B m (t + 1) (some q) i = some (g i) := fun i hi => by
    have := h.full (t + 2) (Nat.le_refl _) hd i (by rw [blk_succ, blk_succ (t + 2), hi])
    rw [ha] at this hp
    simp only [look, hp, Option.bind_some, dig_congr hi, hq] at this
    exact this
  refine ⟨h.good, fun u hu hud => ?_, fun u hu hud => ?_⟩
  · by_cases e : u = t + 1
    · subst e; intro i hi; rw [upd_same]; exact hlook i hi
    · exact (h.full u (by omega) hud).congr h.good (Agree.refl m.length m)
        (fun b hb => by obtain ⟨c, hc, hcl⟩ := h.lt (by omega) hud; rw [hc] at hb; cases hb; exact hcl) (upd_ne _ _ e) rfl
  · by_cases e : u = t + 1
    · subst e
      rw [upd_same]
      have := hlook new rfl
      simp only [look, Option.bind_eq_some_iff] at this
      obtain ⟨cs, hcs, _⟩ := this
      exact ⟨cs, hcs⟩
    · rw [upd_ne _ _ e]; exact h.kinds u (by omega) hud

theorem good_empty {m : Mem T} (h : Good B m) : Good B (m ++ [.inner (List.replicate (2 ^ B) none)]) :=
  h.append ⟨by simp, fun q hq => by simp at hq⟩

theorem look_empty {m : Mem T} {a : Nat} (h : inner m (some a) = some (List.replicate (2 ^ B) none)) (t i : Nat) :
    look B m (t + 1) (some a) i = some none := by
  simp [look, h, dig_lt]

/-- a step to a new empty node -/
theorem Up.empty {m : Mem T} {D : Disp} {depth t new : Nat} (h : Up B m D depth (t + 2) new g)
    (hn : ∀ i, blk B (t + 2) i = blk B (t + 2) new → g i = none) :
    Up B (m ++ [.inner (List.replicate (2 ^ B) none)]) (upd D (t + 1) (some m.length)) depth (t + 1) new g := by
  have hag := agree_append m [.inner (List.replicate (2 ^ B) none)]
  have hlt : ∀ u, t + 2 ≤ u → u < depth → ∀ b, D u = some b → b < m.length := fun u hu hud b hb => by
    obtain ⟨c, hc, hcl⟩ := h.lt hu hud; rw [hc] at hb; cases hb; exact hcl
  refine ⟨good_empty h.good, fun u hu hud => ?_, fun u hu hud => ?_⟩
  · by_cases e : u = t + 1
    · subst e
      intro i hi
      rw [upd_same, hn i hi]
      exact look_empty (inner_some.2 (getElem?_last _ _)) t i
    · exact (h.full u (by omega) hud).congr h.good hag (hlt u (by omega) hud) (upd_ne _ _ e) rfl
  · by_cases e : u = t + 1
    · subst e; rw [upd_same]; exact ⟨_, inner_some.2 (getElem?_last _ _)⟩
    · rw [upd_ne _ _ e, inner_agree hag (hlt u (by omega) hud)]; exact h.kinds u (by omega) hud

/-- nothing is under a node, whatever the position -/
def Hollow (B : Nat) (m : Mem T) (t : Nat) (p : Option Nat) : Prop := ∀ i, look B m t p i = some none

theorem look_digs {m : Mem T} {i i' : Nat} : ∀ (j : Nat) (p : Option Nat), (∀ t, t ≤ j → dig B i (t * B) = dig B i' (t * B)) →
    look B m j p i = look B m j p i'
  | _, none, _ => by simp
  | 0, some a, h => by
      have := h 0 (Nat.le_refl _)
      rw [Nat.zero_mul] at this
      simp only [look, this]
  | j + 1, some a, h => by
      simp only [look, h (j + 1) (Nat.le_refl _)]
      congr 1; funext ps; congr 1; funext q
      exact look_digs j q fun t ht => h t (by omega)

theorem dig_join (c i n t : Nat) (h : t < n) : dig B (c * 2 ^ (n * B) + i % 2 ^ (n * B)) (t * B) = dig B i (t * B) := by
  obtain ⟨u, rfl⟩ : ∃ u, n = t + 1 + u := ⟨n - (t + 1), by omega⟩
  have e : 2 ^ ((t + 1 + u) * B) = 2 ^ (t * B) * (2 ^ B * 2 ^ (u * B)) := by rw [← Nat.pow_add, ← Nat.pow_add]; congr 1; ring
  have key : ∀ c r : Nat, (c * (2 ^ (t * B) * (2 ^ B * 2 ^ (u * B))) + r) / 2 ^ (t * B) % 2 ^ B = r / 2 ^ (t * B) % 2 ^ B := fun c r => by
    rw [show c * (2 ^ (t * B) * (2 ^ B * 2 ^ (u * B))) + r = r + 2 ^ (t * B) * (2 ^ B * (2 ^ (u * B) * c)) by ring,
      Nat.add_mul_div_left _ _ (Nat.two_pow_pos _), Nat.add_mul_mod_self_left]
  rw [dig_eq, dig_eq, e, key]
  conv_rhs => rw [← Nat.div_add_mod i (2 ^ (t * B) * (2 ^ B * 2 ^ (u * B))), Nat.mul_comm (2 ^ (t * B) * _), key]

theorem blk_join (c i n : Nat) : blk B n (c * 2 ^ (n * B) + i % 2 ^ (n * B)) = c := by
  rw [blk, Nat.mul_comm, Nat.mul_add_div (Nat.two_pow_pos _), Nat.div_eq_of_lt (Nat.mod_lt _ (Nat.two_pow_pos _)), Nat.add_zero]

theorem hollow_of {m : Mem T} {t new : Nat} {p : Option Nat} (h : ∀ i, blk B (t + 1) i = blk B (t + 1) new → look B m t p i = some none) :
    Hollow B m t p := fun i => by
  rw [← h (blk B (t + 1) new * 2 ^ ((t + 1) * B) + i % 2 ^ ((t + 1) * B)) (blk_join _ _ _)]
  exact look_digs t p fun u hu => (dig_join _ _ _ _ (by omega)).symm

theorem Hollow.child {m : Mem T} {t a d : Nat} {q : Option Nat} {ps : List (Option Nat)} (h : Hollow B m (t + 1) (some a))
    (hp : inner m (some a) = some ps) (hq : ps[d]? = some q) (hd : d < 2 ^ B) : Hollow B m t q := fun i => by
  have hj := h (d * 2 ^ ((t + 1) * B) + i % 2 ^ ((t + 1) * B))
  have hdig : dig B (d * 2 ^ ((t + 1) * B) + i % 2 ^ ((t + 1) * B)) ((t + 1) * B) = d := by
    rw [dig_eq, ← blk, blk_join, Nat.mod_eq_of_lt hd]
  simp only [look, hp, Option.bind_some, hdig, hq] at hj
  rw [← hj]
  exact look_digs t q fun u hu => (dig_join _ _ _ _ (by omega)).symm

theorem Hollow.kind {m : Mem T} {t a : Nat} (h : Hollow B m (t + 1) (some a)) : ∃ ps, inner m (some a) = some ps := by
  have := h 0
  simp only [look, Option.bind_eq_some_iff] at this
  obtain ⟨ps, hp, _⟩ := this
  exact ⟨ps, hp⟩

/-- below a node with nothing under it the loop goes to nodes with nothing under them, whatever the shift is -/
theorem freshLoop_hollow {depth new s : Nat} : ∀ (i : Nat) (m : Mem T) (D : Disp), Up B m D depth (i + 1) new g → i + 1 < depth →
    Hollow B m (i + 1) (D (i + 1)) → (∀ j, blk B (i + 2) j = blk B (i + 2) new → g j = none) →
    ∃ m' D', freshLoop B new s i m D = some (m', D') ∧ Up B m' D' depth 1 new g ∧ Agree m.length m m' ∧ m.length ≤ m'.length ∧
      ∀ u, i < u → D' u = D u
  | 0, m, D, h, _, _, _ => ⟨m, D, rfl, h, Agree.refl _ _, Nat.le_refl _, fun _ _ => rfl⟩
  | i + 1, m, D, h, hd, he, hn => by
      have hn' : ∀ j, blk B (i + 2) j = blk B (i + 2) new → g j = none := fun j hj => hn j (by rw [blk_succ, blk_succ (i + 2), hj])
      obtain ⟨ps, hp⟩ := h.kinds (i + 2) (Nat.le_refl _) hd
      obtain ⟨a, ha, hal⟩ := h.lt (Nat.le_refl _) hd
      have hp' := hp
      rw [ha] at hp' he
      have hdl : dig B new s < ps.length := by rw [(h.good.inn hp').1]; exact dig_lt _ _
      have hq : ps[dig B new s]? = some ps[dig B new s] := List.getElem?_eq_getElem hdl
      have hh := he.child hp' hq (dig_lt _ _)
      simp only [freshLoop, hp, Option.bind_some, hq]
      cases hx : ps[dig B new s] with
      | some q =>
          rw [hx] at hh
          have hu : Up B m (upd D (i + 1) (some q)) depth (i + 1) new g := by
            refine ⟨h.good, fun u hu hud => ?_, fun u hu hud => ?_⟩
            · by_cases e : u = i + 1
              · subst e; intro j hj; rw [upd_same, hn' j hj]; exact hh j
              · exact (h.full u (by omega) hud).congr h.good (Agree.refl m.length m)
                  (fun b hb => by obtain ⟨c, hc, hcl⟩ := h.lt (by omega) hud; rw [hc] at hb; cases hb; exact hcl) (upd_ne _ _ e) rfl
            · by_cases e : u = i + 1
              · subst e; rw [upd_same]; exact hh.kind
              · rw [upd_ne _ _ e]; exact h.kinds u (by omega) hud
          obtain ⟨m', D', hr, hu', ha', hl', hsame⟩ := freshLoop_hollow (s := s) i _ _ hu (by omega) (by rw [upd_same]; exact hh) hn'
          exact ⟨m', D', hr, hu', ha', hl', fun u hu => by rw [hsame u (by omega), upd_ne _ _ (by omega)]⟩
      | none =>
          obtain ⟨m', D', hr, hu', ha', hl', hsame⟩ := freshLoop_hollow (s := s) i _ _ (h.empty hn') (by omega)
            (by rw [upd_same]; exact fun j => look_empty (inner_some.2 (getElem?_last _ _)) i j) hn'
          exact ⟨m', D', hr, hu', (agree_append m _).trans (ha'.mono (by simp)), by simp at hl'; omega,
            fun u hu => by rw [hsame u (by omega), upd_ne _ _ (by omega)]⟩

/-- the loop goes to the right nodes if it makes at most one round, or if there is nothing yet on the way to `new` -/
theorem freshLoop_ok {depth new k : Nat} {m : Mem T} {D : Disp} (h : Up B m D depth k new g) (hk : 0 < k) (hd : k < depth)
    (hc : k ≤ 2 ∨ ∀ j, blk B k j = blk B k new → g j = none) :
    ∃ m' D', freshLoop B new (k * B) (k - 1) m D = some (m', D') ∧ Up B m' D' depth 1 new g ∧ Agree m.length m m' ∧ m.length ≤ m'.length ∧
      ∀ u, k ≤ u → D' u = D u := by
  rcases Nat.lt_or_ge k 2 with h2 | h2
  · obtain rfl : k = 1 := by omega
    exact ⟨m, D, rfl, h, Agree.refl _ _, Nat.le_refl _, fun _ _ => rfl⟩
  · obtain ⟨k, rfl⟩ : ∃ j, k = j + 2 := ⟨k - 2, by omega⟩
    obtain ⟨ps, hp⟩ := h.kinds (k + 2) (Nat.le_refl _) hd
    obtain ⟨a, ha, hal⟩ := h.lt (Nat.le_refl _) hd
    have hp' := hp
    rw [ha] at hp'
    have hdl : dig B new ((k + 2) * B) < ps.length := by rw [(h.good.inn hp').1]; exact dig_lt _ _
    have hdl' : ps[dig B new ((k + 2) * B)]? = some ps[dig B new ((k + 2) * B)] := List.getElem?_eq_getElem hdl
    have hlook : ∀ i, blk B (k + 2) i = blk B (k + 2) new → look B m (k + 1) ps[dig B new ((k + 2) * B)] i = some (g i) := fun i hi => by
      have := h.full (k + 2) (Nat.le_refl _) hd i (by rw [blk_succ, blk_succ (k + 2), hi])
      rw [ha] at this
      simp only [look, hp', Option.bind_some, dig_congr hi, hdl'] at this
      exact this
    rw [show k + 2 - 1 = k + 1 from rfl]
    simp only [freshLoop, hp, Option.bind_some, hdl']
    cases hq : ps[dig B new ((k + 2) * B)] with
    | some q =>
        have hu := h.child hd hp (q := q) (by rw [hdl', hq])
        rcases hc with hc | hc
        · obtain rfl : k = 0 := by omega
          exact ⟨_, _, rfl, hu, Agree.refl _ _, Nat.le_refl _, fun u hu => upd_ne _ _ (by omega)⟩
        · have hh : Hollow B m (k + 1) (some q) := hollow_of (new := new) fun i hi => by rw [← hq, hlook i hi, hc i hi]
          obtain ⟨m', D', hr, hu', ha', hl', hsame⟩ := freshLoop_hollow (s := (k + 2) * B) k _ _ hu (by omega) (by rw [upd_same]; exact hh) hc
          exact ⟨m', D', hr, hu', ha', hl', fun u hu => by rw [hsame u (by omega), upd_ne _ _ (by omega)]⟩
    | none =>
        have hn : ∀ i, blk B (k + 2) i = blk B (k + 2) new → g i = none := fun i hi => by
          have := hlook i hi
          rw [hq] at this
          simpa using this.symm
        obtain ⟨m', D', hr, hu', ha', hl', hsame⟩ := freshLoop_hollow (s := (k + 2) * B) k _ _ (h.empty hn) (by omega)
          (by rw [upd_same]; exact fun j => look_empty (inner_some.2 (getElem?_last _ _)) k j) hn
        exact ⟨m', D', hr, hu', (agree_append m _).trans (ha'.mono (by simp)), by simp at hl'; omega,
          fun u hu => by rw [hsame u (by omega), upd_ne _ _ (by omega)]⟩

variable [Inhabited T]

/-- the contents with a new leaf at `new` -/
def withLeaf (B new : Nat) (g : Nat → Option T) : Nat → Option T := fun i => if blk B 1 i = blk B 1 new then some default else g i

theorem Up.moved {m m0 : Mem T} {D : Disp} {depth new : Nat} (h : Up B m D depth 1 new g) (hd : 0 < depth) (ha : Agree m0.length m0 m) (hl : m0.length ≤ m.length)
    (ht : ∀ u, depth ≤ u → D u = none) : Moved B (m ++ [.leaf (List.replicate (2 ^ B) default)]) (upd D 0 (some m.length)) depth new (withLeaf B new g) m0 := by
  have hag := agree_append m [.leaf (List.replicate (2 ^ B) (default : T))]
  have hx : leaf (m ++ [.leaf (List.replicate (2 ^ B) default)]) (some m.length) = some (List.replicate (2 ^ B) (default : T)) := leaf_some.2 (getElem?_last _ _)
  have hlt : ∀ u, 1 ≤ u → u < depth → ∀ b, D u = some b → b < m.length := fun u hu hud b hb => by
    obtain ⟨c, hc, hcl⟩ := h.lt hu hud; rw [hc] at hb; cases hb; exact hcl
  refine ⟨h.good.append (by simp [NodeOk]), ha.trans (hag.mono hl), ⟨m.length, upd_same _ _ _, hl, ⟨_, hx⟩, fun u h0 hu => ?_⟩, fun u hu => ?_,
    ⟨⟨_, by rw [upd_same]; exact hx⟩, fun t h0 ht => ?_⟩, fun u hu => by rw [upd_ne _ _ (by omega)]; exact ht u hu⟩
  · rw [upd_ne _ _ (by omega)]; exact h.lt h0 hu
  · intro i hi
    rcases Nat.eq_zero_or_pos u with rfl | h0
    · rw [upd_same, withLeaf, if_pos hi.1]
      simp [look, hx, dig_lt]
    · rw [withLeaf, if_neg (fun e => hi.2 h0 (blk_up e h0))]
      exact ((h.full u h0 hu).congr h.good hag (hlt u h0 hu) (D' := upd D 0 (some m.length)) (upd_ne _ _ (by omega)) rfl) i hi.1
  · rw [upd_ne _ _ (by omega), inner_agree hag (hlt t h0 ht)]; exact h.kinds t h0 ht

/-- `goto_fresh_pos_writable_from_dirty` -/
theorem freshDirty_ok (hB : 0 < B) {m : Mem T} {D : Disp} {depth f new : Nat} (hg : Good B m) (hk : Kinds m D depth) (hd : 0 < depth)
    (hS : ∀ t, t < depth → Shows B m D t f g) (hf : f < 2 ^ (depth * B)) (hn : new ≤ 2 ^ (depth * B)) (hnew : blk B 1 f ≠ blk B 1 new)
    (hM : new < 2 ^ (maxDepth B * B)) (hfM : f < 2 ^ (maxDepth B * B)) (hz : ∀ i, 2 ^ (depth * B) ≤ i → g i = none)
    (hc : ∀ k, Top B k f new → k ≤ 2 ∨ ∀ j, blk B k j = blk B k new → g j = none) (ht : ∀ u, depth ≤ u → D u = none) :
    ∃ m' D' depth', gotoFreshFromDirty B f new (f ^^^ new) depth m D = some (m', D', depth') ∧ Moved B m' D' depth' new (withLeaf B new g) m ∧
      depth ≤ depth' ∧ new < 2 ^ (depth' * B) := by
  unfold gotoFreshFromDirty stabilize gotoFreshFromClean
  have htop := top_displayIdx hB f new
  generalize hkk : displayIdx B (f ^^^ new) = k at htop ⊢
  have hk0 : 0 < k := by
    rcases Nat.eq_zero_or_pos k with rfl | h
    · exact absurd htop.1 hnew
    · exact h
  obtain ⟨m1, D1, he1, hg1, hl1, hag1, hk1, hF1, hD1, -⟩ := stab_ok (f := f) (depth - 1) 1 m D (Nat.le_refl _) hg
    (by rwa [show 1 + (depth - 1) = depth by omega])
    (fun t ht => by obtain rfl : t = 0 := by omega
                    exact (hS 0 hd).full) (fun t _ ht => hS t (by omega))
  rw [show 1 + (depth - 1) = depth by omega] at hk1 hF1 hD1
  rw [Nat.one_mul] at he1
  rw [he1]
  simp only [Option.bind_some, if_pos hk0, newRoot]
  by_cases hkd : k = depth
  · subst hkd
    have hkM : k < maxDepth B := by
      rcases Nat.lt_or_ge k (maxDepth B) with h | h
      · exact h
      · have hle : 2 ^ (maxDepth B * B) ≤ 2 ^ (k * B) := Nat.pow_le_pow_right (by omega) (Nat.mul_le_mul_right B h)
        exact absurd (by rw [blk, blk, Nat.div_eq_of_lt (by omega), Nat.div_eq_of_lt (by omega)]) (htop.2 hk0)
    obtain ⟨q, hq, hql⟩ := hk1.lt (t := k - 1) (by omega)
    rw [if_pos rfl, if_pos hkM, setSlot_last m1 _ (by rw [List.length_replicate]; exact dig_lt _ _)]
    simp only [Option.map_some, Option.bind_some]
    have hgr : Good B (m1 ++ [.inner ((List.replicate (2 ^ B) none).set (dig B f (k * B)) (D1 (k - 1)))]) := by
      refine hg1.append ⟨by simp, fun r hr => ?_⟩
      exact mem_set_ptr hr (fun q hq => by simp at hq) (fun r hr => by rw [hq] at hr; cases hr; exact hql)
    have hag := agree_append m1 [.inner ((List.replicate (2 ^ B) none).set (dig B f (k * B)) (D1 (k - 1)))]
    have hlast : inner (m1 ++ [.inner ((List.replicate (2 ^ B) none).set (dig B f (k * B)) (D1 (k - 1)))]) (some m1.length) = some _ :=
      inner_some.2 (getElem?_last _ _)
    have hup : Up B (m1 ++ [.inner ((List.replicate (2 ^ B) none).set (dig B f (k * B)) (D1 (k - 1)))]) (upd D1 k (some m1.length)) (k + 1) k new g := by
      refine ⟨hgr, fun u hu hud => ?_, fun u hu hud => ?_⟩
      · obtain rfl : u = k := by omega
        intro i hi
        rw [upd_same]
        obtain ⟨t, rfl⟩ : ∃ t, u = t + 1 := ⟨u - 1, by omega⟩
        simp only [look, hlast, Option.bind_some, List.getElem?_set, List.length_replicate, dig_lt, if_true]
        have hfi := hi.trans htop.1.symm
        by_cases hb : blk B (t + 1) i = blk B (t + 1) f
        · rw [if_pos (dig_congr hb).symm]
          simp only [Option.bind_some, Nat.add_sub_cancel]
          simp only [Nat.add_sub_cancel] at hq hag
          rw [look_agree hg1 hag i t (D1 t) (fun b hb => by rw [hq] at hb; cases hb; exact hql)]
          exact hF1 t (by omega) i hb
        · rw [if_neg (fun h => dig_ne hfi hb h.symm)]
          simp only [List.getElem?_replicate, dig_lt, if_true, Option.bind_some, look_none]
          rw [hz i]
          rcases Nat.lt_or_ge i (2 ^ ((t + 1) * B)) with hl | hl
          · exact absurd (by rw [blk, blk, Nat.div_eq_of_lt hl, Nat.div_eq_of_lt hf]) hb
          · exact hl
      · obtain rfl : u = k := by omega
        rw [upd_same]; exact ⟨_, hlast⟩
    obtain ⟨m2, D2, he2, hu2, hag2, hl2, hsame⟩ := freshLoop_ok hup hk0 (by omega) (hc k htop)
    rw [he2]
    refine ⟨_, _, _, rfl, hu2.moved (by omega) (hag1.trans ((hag.mono hl1).trans (hag2.mono (by simp; omega)))) (by simp at hl2; omega)
      (fun u hu => by rw [hsame u (by omega), upd_ne _ _ (by omega), hD1 u (by omega)]; exact ht u (by omega)), by omega, ?_⟩
    refine Nat.lt_of_le_of_lt hn (Nat.pow_lt_pow_right (by omega) ?_)
    rw [Nat.succ_mul]; omega
  · have hkd' : k < depth := by
      rcases Nat.lt_trichotomy k depth with h | h | h
      · exact h
      · exact absurd h hkd
      · exfalso
        have hle : 2 ^ (depth * B) < 2 ^ (k * B) := Nat.pow_lt_pow_right (by omega) (Nat.mul_lt_mul_of_pos_right h hB)
        exact absurd (by rw [blk, blk, Nat.div_eq_of_lt (by omega), Nat.div_eq_of_lt (by omega)]) (htop.2 hk0)
    rw [if_neg hkd]
    simp only [Option.bind_some]
    have hup : Up B m1 D1 depth k new g := by
      refine ⟨hg1, fun u hu hud i hi => hF1 u hud i (hi.trans (blk_up htop.1 (by omega)).symm), fun u hu hud => hk1.inn u (by omega) hud⟩
    obtain ⟨m2, D2, he2, hu2, hag2, hl2, hsame⟩ := freshLoop_ok hup hk0 hkd' (hc k htop)
    rw [he2]
    refine ⟨_, _, _, rfl, hu2.moved (by omega) (hag1.trans (hag2.mono hl1)) (by omega)
      (fun u hu => by rw [hsame u (by omega), hD1 u (by omega)]; exact ht u (by omega)), Nat.le_refl _, ?_⟩
    have e : blk B depth new = 0 := by
      rw [← blk_up (B := B) htop.1 (show k + 1 ≤ depth by omega), blk, Nat.div_eq_of_lt hf]
    exact (Nat.div_eq_zero_iff.1 e).resolve_left (by positivity)

end Dv
