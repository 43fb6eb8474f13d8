import Verif.Dv.Base

/-! Moving the display to another position. -/

namespace Dv

variable {T : Type} {B : Nat} {g : Nat → Option T}

@[simp] theorem upd_same (D : Disp) (i : Nat) (p : Option Nat) : upd D i p i = p := by simp [upd]
theorem upd_ne (D : Disp) {i j : Nat} (p : Option Nat) (h : j ≠ i) : upd D i p j = D j := by simp [upd, h]

theorem copyOfInner_eq {m : Mem T} {p : Option Nat} {ps : List (Option Nat)} (h : inner m p = some ps) :
    copyOfInner m p = some (m ++ [.inner ps], m.length) := by simp [copyOfInner, h, mk]

theorem copyOfLeaf_eq {m : Mem T} {p : Option Nat} {xs : List T} (h : leaf m p = some xs) :
    copyOfLeaf m p = some (m ++ [.leaf xs], m.length) := by simp [copyOfLeaf, h, mk]

theorem getElem?_last (m : Mem T) (n : Node T) : (m ++ [n])[m.length]? = some n := by simp

theorem setSlot_eq {m : Mem T} {a i : Nat} {ps : List (Option Nat)} (q : Option Nat) (h : inner m (some a) = some ps) (hi : i < ps.length) :
    setSlot m (some a) i q = some (m.set a (.inner (ps.set i q))) := by simp [setSlot, h, hi]

theorem setElem_eq {m : Mem T} {a i : Nat} {xs : List T} (x : T) (h : leaf m (some a) = some xs) (hi : i < xs.length) :
    setElem m (some a) i x = some (m.set a (.leaf (xs.set i x))) := by simp [setElem, h, hi]

theorem setSlot_last (m : Mem T) {i : Nat} {ps : List (Option Nat)} (q : Option Nat) (hi : i < ps.length) :
    setSlot (m ++ [.inner ps]) (some m.length) i q = some (m ++ [.inner (ps.set i q)]) := by
  rw [setSlot_eq q (inner_some.2 (getElem?_last m _)) hi]
  simp [List.set_append]

theorem mem_set_ptr {ps : List (Option Nat)} {i q a : Nat} {p : Option Nat} (h : some q ∈ ps.set i p) (hp : ∀ q, some q ∈ ps → q < a)
    (hq : ∀ q, p = some q → q < a) : q < a := by
  rcases List.mem_or_eq_of_mem_set h with h | h
  · exact hp q h
  · exact hq q h.symm

/-- after the loop of `stabilize` the nodes of the display show everything -/
theorem stab_ok {f : Nat} : ∀ (n i : Nat) (m : Mem T) (D : Disp), 1 ≤ i → Good B m → Kinds m D (i + n) →
    (∀ t, t < i → Full B m D t f g) → (∀ t, i ≤ t → t < i + n → Shows B m D t f g) →
    ∃ m' D', stab B f n i (i * B) m D = some (m', D') ∧ Good B m' ∧ m.length ≤ m'.length ∧ Agree m.length m m' ∧ Kinds m' D' (i + n) ∧
      (∀ t, t < i + n → Full B m' D' t f g) ∧ (∀ t, t < i ∨ i + n ≤ t → D' t = D t) ∧
      (0 < n → D' (i + n - 1) = some (m'.length - 1) ∧ m.length < m'.length)
  | 0, i, m, D, _, hg, hk, hF, _ => ⟨m, D, rfl, hg, Nat.le_refl _, Agree.refl _ _, hk, hF, fun _ _ => rfl, fun h => absurd h (by omega)⟩
  | n + 1, i, m, D, h1, hg, hk, hF, hS => by
      obtain ⟨ps, hps⟩ := hk.inn i (by omega) (by omega)
      obtain ⟨a, ha, hal⟩ := hk.lt (t := i) (by omega)
      obtain ⟨q, hq, hql⟩ := hk.lt (t := i - 1) (by omega)
      have hps' := hps
      rw [ha] at hps'
      obtain ⟨hlen, hlow⟩ := hg.inn hps'
      have hd : dig B f (i * B) < ps.length := by rw [hlen]; exact dig_lt _ _
      have hg1 : Good B (m ++ [Node.inner (ps.set (dig B f (i * B)) (some q))]) := by
        refine hg.append ⟨by simp [hlen], fun r hr => ?_⟩
        exact mem_set_ptr hr (fun q hq => Nat.lt_trans (hlow q hq) hal) (fun r hr => by cases hr; exact hql)
      have hag := agree_append m [Node.inner (ps.set (dig B f (i * B)) (some q))]
      have hlt : ∀ t, t < i + (n + 1) → ∀ b, D t = some b → b < m.length := fun t ht b hb => by
        obtain ⟨c, hc, hcl⟩ := hk.lt ht
        rw [hc] at hb; cases hb; exact hcl
      have hk1 : Kinds (m ++ [Node.inner (ps.set (dig B f (i * B)) (some q))]) (upd D i (some m.length)) (i + 1 + n) := by
        constructor
        · rw [upd_ne _ _ (by omega), leaf_agree hag (hlt 0 (by omega))]; exact hk.zero
        · intro t h0 ht
          by_cases e : t = i
          · subst e; rw [upd_same]; exact ⟨_, inner_some.2 (getElem?_last _ _)⟩
          · rw [upd_ne _ _ e, inner_agree hag (hlt t (by omega))]; exact hk.inn t h0 (by omega)
      have hF1 : ∀ t, t < i + 1 → Full B (m ++ [Node.inner (ps.set (dig B f (i * B)) (some q))]) (upd D i (some m.length)) t f g := by
        intro t ht
        by_cases e : t = i
        · subst e
          intro j hj
          obtain ⟨t, rfl⟩ : ∃ u, t = u + 1 := ⟨t - 1, by omega⟩
          rw [upd_same]
          simp only [look, inner_some.2 (getElem?_last _ _), Option.bind_some, List.getElem?_set]
          by_cases hb : blk B (t + 1) j = blk B (t + 1) f
          · rw [if_pos (dig_congr hb).symm, if_pos hd]
            simp only [Option.bind_some]
            simp only [Nat.add_sub_cancel] at hq
            rw [look_agree hg hag j t _ (fun b hb => by cases hb; exact hql), ← hq]
            exact hF t (by omega) j hb
          · rw [if_neg (fun h => dig_ne hj hb h.symm)]
            have hs := hS (t + 1) (by omega) (by omega) j ⟨hj, fun _ => hb⟩
            rw [ha] at hs
            simp only [look, hps', Option.bind_some] at hs
            cases hx : ps[dig B j ((t + 1) * B)]? with
            | none => simp [hx] at hs
            | some r =>
                simp only [hx, Option.bind_some] at hs ⊢
                rw [look_agree hg hag j t _ (fun b hb => by
                  subst hb; exact Nat.lt_trans (hlow b (List.mem_of_getElem? hx)) hal)]
                exact hs
        · exact (hF t (by omega)).congr hg hag (hlt t (by omega)) (upd_ne _ _ e) rfl
      have hS1 : ∀ t, i + 1 ≤ t → t < i + 1 + n → Shows B (m ++ [Node.inner (ps.set (dig B f (i * B)) (some q))]) (upd D i (some m.length)) t f g :=
        fun t h1 h2 => (hS t (by omega) (by omega)).congr hg hag (hlt t (by omega)) (upd_ne _ _ (by omega))
      obtain ⟨m', D', he, hg', hl', hag', hk', hF', hD', hla'⟩ := stab_ok n (i + 1) _ _ (by omega) hg1 hk1 hF1 hS1
      have hl1 : (m ++ [Node.inner (ps.set (dig B f (i * B)) (some q))]).length = m.length + 1 := by simp
      rw [hl1] at hl' hag' hla'
      refine ⟨m', D', ?_, hg', by omega, hag.trans (hag'.mono (by omega)), by rwa [show i + (n + 1) = i + 1 + n by omega],
        fun t ht => hF' t (by omega), fun t ht => ?_, fun _ => ⟨?_, by omega⟩⟩
      · simp only [stab, copyOfInner_eq hps, Option.bind_some]
        rw [setSlot_last m _ hd, hq]
        simp only [Option.bind_some]
        rw [show i * B + B = (i + 1) * B by rw [Nat.succ_mul]]
        exact he
      · rw [hD' t (by omega), upd_ne _ _ (by omega)]
      · by_cases h0 : 0 < n
        · have := (hla' h0).1
          rwa [show i + 1 + n - 1 = i + (n + 1) - 1 by omega] at this
        · obtain rfl : n = 0 := by omega
          simp only [stab, Option.some.injEq, Prod.mk.injEq] at he
          obtain ⟨rfl, rfl⟩ := he
          simp

/-- the state in which the display has been moved to level `t` on the way to `new`: the node there is a new one, and no other node of the
display above it is newer -/
structure Down (B : Nat) (m : Mem T) (D : Disp) (depth t a new n0 : Nat) (g : Nat → Option T) : Prop where
  good : Good B m
  ptr : D t = some a
  fresh : n0 ≤ a
  below : ∀ u, t < u → u < depth → ∃ b, D u = some b ∧ b < a
  full : Full B m D t new g
  shows : ∀ u, t < u → u < depth → Shows B m D u new g
  kinds : ∀ u, t < u → u < depth → ∃ ps, inner m (D u) = some ps

/-- one step down: the slot towards `new` of a new node is made null, and the node it pointed to is copied -/
theorem null_step {m : Mem T} {D : Disp} {depth t a new n0 : Nat} {v : T} (h : Down B m D depth (t + 1) a new n0 g) {n : Node T} {x : Nat}
    {ps : List (Option Nat)} (hps : inner m (some a) = some ps) (hx : ps[dig B new ((t + 1) * B)]? = some (some x)) (hn : m[x]? = some n)
    (_hv : g new = some v) :
    (m.set a (.inner (ps.set (dig B new ((t + 1) * B)) none)))[x]? = some n ∧
    Down B (m.set a (.inner (ps.set (dig B new ((t + 1) * B)) none)) ++ [n]) (upd D t (some m.length)) depth t m.length new n0 g ∧
    Agree n0 m (m.set a (.inner (ps.set (dig B new ((t + 1) * B)) none)) ++ [n]) := by
  have hal := inner_lt hps
  obtain ⟨hlen, hlow⟩ := h.good.inn hps
  have hxa : x < a := hlow x (List.mem_of_getElem? hx)
  have hd : dig B new ((t + 1) * B) < ps.length := by rw [hlen]; exact dig_lt _ _
  have hag1 := agree_set m a (.inner (ps.set (dig B new ((t + 1) * B)) none))
  have hag2 := agree_append (m.set a (.inner (ps.set (dig B new ((t + 1) * B)) none))) [n]
  rw [List.length_set] at hag2
  have hag : Agree a m (m.set a (.inner (ps.set (dig B new ((t + 1) * B)) none)) ++ [n]) := hag1.trans (hag2.mono (by omega))
  have hnok : NodeOk B x n := h.good x n hn
  have hat : (m.set a (.inner (ps.set (dig B new ((t + 1) * B)) none)) ++ [n])[a]? = some (.inner (ps.set (dig B new ((t + 1) * B)) none)) := by
    rw [hag2 a hal, List.getElem?_set_self hal]
  have hlast : (m.set a (.inner (ps.set (dig B new ((t + 1) * B)) none)) ++ [n])[m.length]? = some n := by
    have := getElem?_last (m.set a (.inner (ps.set (dig B new ((t + 1) * B)) none))) n
    rwa [List.length_set] at this
  refine ⟨by rw [hag1 x hxa, hn], ⟨?_, upd_same _ _ _, by have := h.fresh; omega, ?_, ?_, ?_, ?_⟩, hag.mono h.fresh⟩
  · refine Good.append (h.good.set (c := a) (n := .inner (ps.set (dig B new ((t + 1) * B)) none)) ⟨by simp [hlen], fun q hq => mem_set_ptr hq hlow (fun _ h => by cases h)⟩) ?_
    rw [List.length_set]
    cases n with
    | leaf xs => exact hnok
    | inner cs => exact ⟨hnok.1, fun q hq => by have := hnok.2 q hq; omega⟩
  · intro u hu hud
    rw [upd_ne _ _ (by omega)]
    rcases Nat.lt_or_eq_of_le (Nat.succ_le_of_lt hu) with hl | he
    · obtain ⟨b, hb, hba⟩ := h.below u hl hud
      exact ⟨b, hb, by omega⟩
    · subst he; exact ⟨a, h.ptr, hal⟩
  · intro i hi
    have hf := h.full i (by rw [blk_succ, blk_succ (t + 1), hi])
    rw [h.ptr] at hf
    simp only [look, hps, Option.bind_some, dig_congr hi, hx] at hf
    rw [upd_same]
    cases t with
    | zero =>
        cases n with
        | leaf xs =>
            simp only [look, leaf_some.2 hn] at hf
            simp only [look, leaf_some.2 hlast]
            exact hf
        | inner cs => simp [look, leaf, hn] at hf
    | succ t =>
        cases n with
        | leaf xs => simp [look, inner, hn] at hf
        | inner cs =>
            simp only [look, inner_some.2 hn, Option.bind_some] at hf
            simp only [look, inner_some.2 hlast, Option.bind_some]
            cases hy : cs[dig B i ((t + 1) * B)]? with
            | none => simp [hy] at hf
            | some q =>
                simp only [hy, Option.bind_some] at hf ⊢
                rw [look_agree h.good hag i t _ (fun b hb => by
                  subst hb; have := hnok.2 b (List.mem_of_getElem? hy); omega)]
                exact hf
  · intro u hu hud
    rcases Nat.lt_or_eq_of_le (Nat.succ_le_of_lt hu) with hl | he
    · obtain ⟨b, hb, hba⟩ := h.below u hl hud
      exact (h.shows u hl hud).congr h.good hag (fun c hc => by rw [hb] at hc; cases hc; exact hba) (upd_ne _ _ (by omega))
    · subst he
      intro i hi
      have hf := h.full i hi.1
      rw [h.ptr] at hf
      simp only [look, hps, Option.bind_some] at hf
      rw [upd_ne _ _ (by omega), h.ptr]
      simp only [look, inner_some.2 hat, Option.bind_some, List.getElem?_set]
      rw [if_neg (fun e => dig_ne hi.1 (hi.2 (by omega)) e.symm)]
      cases hy : ps[dig B i ((t + 1) * B)]? with
      | none => simp [hy] at hf
      | some q =>
          simp only [hy, Option.bind_some] at hf ⊢
          rw [look_agree h.good hag i t _ (fun b hb => by subst hb; exact hlow b (List.mem_of_getElem? hy))]
          exact hf
  · intro u hu hud
    rw [upd_ne _ _ (by omega)]
    rcases Nat.lt_or_eq_of_le (Nat.succ_le_of_lt hu) with hl | he
    · obtain ⟨b, hb, hba⟩ := h.below u hl hud
      rw [inner_agree hag (fun c hc => by rw [hb] at hc; cases hc; exact hba)]
      exact h.kinds u hl hud
    · subst he; rw [h.ptr]; exact ⟨_, inner_some.2 hat⟩

/-- under a node with an element at `new` there is the node on the next level -/
theorem Down.child {m : Mem T} {D : Disp} {depth t a new n0 : Nat} {v : T} (h : Down B m D depth (t + 1) a new n0 g) (hv : g new = some v) :
    ∃ ps x n, inner m (some a) = some ps ∧ ps[dig B new ((t + 1) * B)]? = some (some x) ∧ m[x]? = some n ∧
      (if t = 0 then ∃ xs, n = .leaf xs else ∃ cs, n = .inner cs) := by
  have hf := h.full new rfl
  rw [h.ptr, hv] at hf
  simp only [look, Option.bind_eq_some_iff] at hf
  obtain ⟨ps, hps, q, hq, hl⟩ := hf
  cases q with
  | none => simp at hl
  | some x =>
      cases t with
      | zero =>
          simp only [look, Option.bind_eq_some_iff] at hl
          obtain ⟨xs, hxs, _⟩ := hl
          exact ⟨ps, x, _, hps, hq, leaf_some.1 hxs, by simp⟩
      | succ t =>
          simp only [look, Option.bind_eq_some_iff] at hl
          obtain ⟨xs, hxs, _⟩ := hl
          exact ⟨ps, x, _, hps, hq, inner_some.1 hxs, by simp⟩

theorem walk_ok {depth new n0 : Nat} {v : T} (hv : g new = some v) : ∀ (i : Nat) (m : Mem T) (D : Disp) (a : Nat), Down B m D depth (i + 1) a new n0 g →
    ∃ m' D' a', walk B new i ((i + 2) * B) m D = some (m', D') ∧ Down B m' D' depth 1 a' new n0 g ∧ Agree n0 m m' ∧ m.length ≤ m'.length ∧
      ∀ u, i < u → D' u = D u
  | 0, m, D, a, h => ⟨m, D, a, rfl, h, Agree.refl _ _, Nat.le_refl _, fun _ _ => rfl⟩
  | i + 1, m, D, a, h => by
      obtain ⟨ps, x, n, hps, hx, hn, hk⟩ := h.child hv
      rw [if_neg (by omega)] at hk
      obtain ⟨cs, rfl⟩ := hk
      obtain ⟨hn', hd, hag⟩ := null_step h hps hx hn hv
      obtain ⟨m', D', a', he, hd', hag', hl', hsame⟩ := walk_ok hv i _ _ _ hd
      refine ⟨m', D', a', ?_, hd', hag.trans hag', by simp at hl'; omega, fun u hu => by rw [hsame u (by omega), upd_ne _ _ (by omega)]⟩
      have hlt : dig B new ((i + 2) * B) < ps.length := by rw [(h.good.inn hps).1]; exact dig_lt _ _
      simp only [walk, nullSlotAndCopyInner]
      rw [show (i + 1 + 2) * B - B = (i + 2) * B by rw [Nat.succ_mul (i + 2), Nat.add_sub_cancel]]
      rw [h.ptr, hps]
      simp only [Option.bind_some]
      rw [show (i + 1 + 1) = i + 2 from rfl] at hx
      rw [hx]
      simp only [Option.bind_some, setSlot_eq none hps hlt]
      rw [copyOfInner_eq (inner_some.2 hn')]
      simp only [Option.bind_some, List.length_set]
      exact he

/-- what moving the display to `new` gives: the leaf is the newest node -/
structure Moved (B : Nat) (m : Mem T) (D : Disp) (depth new : Nat) (g : Nat → Option T) (m0 : Mem T) : Prop where
  good : Good B m
  agree : Agree m0.length m0 m
  ptr : ∃ a, D 0 = some a ∧ m0.length ≤ a ∧ (∃ xs, leaf m (some a) = some xs) ∧ ∀ u, 0 < u → u < depth → ∃ b, D u = some b ∧ b < a
  shows : ∀ u, u < depth → Shows B m D u new g
  kinds : Kinds m D depth
  tail : ∀ u, depth ≤ u → D u = none

theorem Down.moved {m m0 : Mem T} {D : Disp} {depth a new : Nat} (h : Down B m D depth 0 a new m0.length g) (ha : Agree m0.length m0 m)
    {xs : List T} (hx : leaf m (some a) = some xs) (ht : ∀ u, depth ≤ u → D u = none) : Moved B m D depth new g m0 where
  good := h.good
  agree := ha
  ptr := ⟨a, h.ptr, h.fresh, ⟨xs, hx⟩, h.below⟩
  shows u hu := by
    rcases Nat.eq_zero_or_pos u with rfl | h0
    · exact h.full.shows
    · exact h.shows u h0 hu
  kinds := ⟨⟨xs, by rw [h.ptr]; exact hx⟩, h.kinds⟩
  tail := ht

theorem copy_leaf_ok {m : Mem T} {D : Disp} {depth f new : Nat} (hg : Good B m) (hk : Kinds m D depth) (hd : 0 < depth)
    (hS : ∀ t, t < depth → Shows B m D t f g) (hb : blk B 1 f = blk B 1 new) (ht : ∀ u, depth ≤ u → D u = none) :
    ∃ m' D', ((copyOfLeaf m (D 0)).map fun (m, p) => (m, upd D 0 (some p))) = some (m', D') ∧ Moved B m' D' depth new g m := by
  obtain ⟨xs, hx⟩ := hk.zero
  obtain ⟨a, ha, hal⟩ := hk.lt hd
  have hlt : ∀ t, t < depth → ∀ b, D t = some b → b < m.length := fun t ht b hb => by
    obtain ⟨c, hc, hcl⟩ := hk.lt ht
    rw [hc] at hb; cases hb; exact hcl
  have hag := agree_append m [.leaf xs]
  have hx' := hx
  rw [ha] at hx'
  have hl : leaf (m ++ [.leaf xs]) (some m.length) = some xs := leaf_some.2 (getElem?_last _ _)
  refine ⟨m ++ [.leaf xs], upd D 0 (some m.length), by simp [copyOfLeaf_eq hx], ?_⟩
  refine ⟨hg.append (hg.lf hx'), hag, ⟨m.length, upd_same _ _ _, Nat.le_refl _, ⟨xs, hl⟩, fun u h0 hu => ?_⟩, fun u hu => ?_, ⟨?_, fun t h0 ht => ?_⟩,
    fun u hu => by rw [upd_ne _ _ (by omega)]; exact ht u hu⟩
  · obtain ⟨b, hb, hbl⟩ := hk.lt hu
    exact ⟨b, by rw [upd_ne _ _ (by omega)]; exact hb, hbl⟩
  · rcases Nat.eq_zero_or_pos u with rfl | h0
    · intro i hi
      have := hS 0 hd i ⟨hi.1.trans hb.symm, fun h => absurd h (by omega)⟩
      rw [ha] at this
      simp only [look, hx'] at this
      rw [upd_same]
      simp only [look, hl]
      exact this
    · have := (hS u hu).congr hg hag (hlt u hu) (D' := upd D 0 (some m.length)) (upd_ne _ _ (by omega))
      intro i hi
      exact this i ⟨hi.1.trans (blk_up hb (by omega)).symm, fun h e => hi.2 h (e.trans (blk_up hb (by omega)))⟩
  · rw [upd_same]; exact ⟨xs, hl⟩
  · rw [upd_ne _ _ (by omega), inner_agree hag (hlt t ht)]; exact hk.inn t h0 ht

/-- `goto_pos_writable_from_dirty` -/
theorem fromDirty_ok (hB : 0 < B) {m : Mem T} {D : Disp} {depth f new : Nat} {v : T} (hg : Good B m) (hk : Kinds m D depth) (hd : 0 < depth)
    (hS : ∀ t, t < depth → Shows B m D t f g) (hf : f < 2 ^ (depth * B)) (hn : new < 2 ^ (depth * B)) (hv : g new = some v) (ht : ∀ u, depth ≤ u → D u = none) :
    ∃ m' D', gotoWritableFromDirty B f new (f ^^^ new) m D = some (m', D') ∧ Moved B m' D' depth new g m := by
  unfold gotoWritableFromDirty
  have htop := top_displayIdx hB f new
  by_cases hx : f ^^^ new < 2 ^ B
  · rw [if_pos hx]
    refine copy_leaf_ok hg hk hd hS ?_ ?_
    · have := (shr_eq_iff f new B).2 hx
      simpa [blk] using this
    · exact ht
  · rw [if_neg hx]
    generalize hkk : displayIdx B (f ^^^ new) = k at htop ⊢
    have hk0 : 0 < k := by
      rcases Nat.eq_zero_or_pos k with rfl | h
      · refine absurd ((shr_eq_iff f new B).1 ?_) hx
        simpa [blk] using htop.1
      · exact h
    have hkd : k < depth := by
      rcases Nat.lt_or_ge k depth with h | h
      · exact h
      · have hle : 2 ^ (depth * B) ≤ 2 ^ (k * B) := Nat.pow_le_pow_right (by omega) (Nat.mul_le_mul_right B h)
        exact absurd (by rw [blk, blk, Nat.div_eq_of_lt (by omega), Nat.div_eq_of_lt (by omega)]) (htop.2 hk0)
    have hkK : Kinds m D (1 + k) := ⟨hk.zero, fun t h0 ht => hk.inn t h0 (by omega)⟩
    obtain ⟨m1, D1, he1, hg1, hl1, hag1, hk1, hF1, hD1, hla1⟩ := stab_ok (f := f) k 1 m D (Nat.le_refl _) hg hkK
      (fun t ht => by obtain rfl : t = 0 := by omega
                      exact (hS 0 hd).full) (fun t _ ht => hS t (by omega))
    obtain ⟨hla, hll⟩ := hla1 hk0
    rw [show 1 + k - 1 = k by omega] at hla
    have hlt : ∀ t, t < depth → ∀ b, D t = some b → b < m.length := fun t ht b hb => by
      obtain ⟨c, hc, hcl⟩ := hk.lt ht
      rw [hc] at hb; cases hb; exact hcl
    have hdown : Down B m1 D1 depth k (m1.length - 1) new m.length g := by
      refine ⟨hg1, hla, by omega, fun u hu hud => ?_, ?_, fun u hu hud => ?_, fun u hu hud => ?_⟩
      · obtain ⟨b, hb, hbl⟩ := hk.lt hud
        exact ⟨b, by rw [hD1 u (by omega)]; exact hb, by omega⟩
      · exact (hF1 k (by omega)).congr hg1 (Agree.refl m1.length m1) (fun b hb => by rw [hla] at hb; cases hb; omega) rfl htop.1
      · have := (hS u hud).congr hg hag1 (hlt u hud) (hD1 u (by omega))
        intro i hi
        have e := blk_up (B := B) htop.1 (show k + 1 ≤ u by omega)
        have e' := blk_up (B := B) htop.1 (show k + 1 ≤ u + 1 by omega)
        exact this i ⟨hi.1.trans e'.symm, fun h h' => hi.2 h (h'.trans e)⟩
      · rw [hD1 u (by omega), inner_agree hag1 (hlt u hud)]; exact hk.inn u (by omega) hud
    obtain ⟨k, rfl⟩ : ∃ j, k = j + 1 := ⟨k - 1, by omega⟩
    obtain ⟨m2, D2, a2, he2, hd2, hag2, hl2, hsame⟩ := walk_ok hv k m1 D1 _ hdown
    obtain ⟨ps, x, n, hps, hxp, hnx, hkind⟩ := hd2.child hv
    rw [if_pos rfl] at hkind
    obtain ⟨xs, rfl⟩ := hkind
    obtain ⟨hn', hd3, hag3⟩ := null_step hd2 hps hxp hnx hv
    rw [Nat.one_mul] at he1
    have hdlt : dig B new B < ps.length := by rw [(hd2.good.inn hps).1]; exact dig_lt _ _
    refine ⟨_, _, ?_, hd3.moved ((hag1.trans hag2).trans hag3) (leaf_some.2 (by
      have := getElem?_last (m2.set a2 (.inner (ps.set (dig B new ((0 + 1) * B)) none))) (.leaf xs)
      rwa [List.length_set] at this)) (fun u hu => by rw [upd_ne _ _ (by omega), hsame u (by omega), hD1 u (by omega)]; exact ht u hu)⟩
    rw [he1]
    simp only [Option.bind_some, Nat.add_sub_cancel]
    rw [show B + (k + 1) * B = (k + 2) * B by rw [Nat.succ_mul (k + 1), Nat.add_comm], he2]
    simp only [Nat.zero_add, Nat.one_mul] at hxp hn' ⊢
    simp only [Option.bind_some, nullSlotAndCopyLeaf, hd2.ptr, hps, hxp, setSlot_eq none hps hdlt]
    rw [copyOfLeaf_eq (leaf_some.2 hn')]
    simp

end Dv
