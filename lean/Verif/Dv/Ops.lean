import Verif.Dv.Fresh

/-! What the operations of `dvektor` do. -/

namespace Dv

variable {T : Type} {B : Nat}

/-- a vector with elements: what is found under the nodes of the display is `g` -/
structure Body (B : Nat) (m : Mem T) (s : Impl) (l : List T) (g : Nat → Option T) : Prop where
  kinds : Kinds m s.display s.depth
  depth : 0 < s.depth
  focus : s.focus < l.length
  room : l.length ≤ 2 ^ (s.depth * B)
  shows : ∀ t, t < s.depth → Shows B m s.display t s.focus g
  vals : ∀ i (h : i < l.length), g i = some l[i]
  nulls : ∀ i, l.length ≤ blk B 1 i * 2 ^ B → g i = none
  clean : s.dirty = false → s.depth = 1 ∧ l.length = 1
  tail : ∀ u, s.depth ≤ u → s.display u = none

/-- the vector has the elements of a list -/
structure Rep (B : Nat) (m : Mem T) (s : Impl) (l : List T) : Prop where
  size : s.size = l.length
  body : l ≠ [] → ∃ g, Body B m s l g

theorem rep_empty (m : Mem T) : Rep B m empty [] := ⟨rfl, fun h => absurd rfl h⟩

theorem Body.lt {m : Mem T} {s : Impl} {l : List T} {g : Nat → Option T} (h : Body B m s l g) {t : Nat} (ht : t < s.depth) :
    ∀ b, s.display t = some b → b < m.length := fun b hb => by
  obtain ⟨c, hc, hcl⟩ := h.kinds.lt ht
  rw [hc] at hb; cases hb; exact hcl

/-- a vector is what it was if nothing of what was there is written to -/
theorem Rep.agree {m m' : Mem T} {s : Impl} {l : List T} (h : Rep B m s l) (hg : Good B m) (ha : Agree m.length m m') : Rep B m' s l := by
  refine ⟨h.size, fun hl => ?_⟩
  obtain ⟨g, hb⟩ := h.body hl
  refine ⟨g, ⟨?_, fun t h0 ht => ?_⟩, hb.depth, hb.focus, hb.room, fun t ht => (hb.shows t ht).congr hg ha (hb.lt ht) rfl, hb.vals, hb.nulls, hb.clean, hb.tail⟩
  · rw [leaf_agree ha (hb.lt hb.depth)]; exact hb.kinds.zero
  · rw [inner_agree ha (hb.lt ht)]; exact hb.kinds.inn t h0 ht

theorem get_ok (hB : 0 < B) {m : Mem T} {s : Impl} {l : List T} (h : Rep B m s l) {i : Nat} (hi : i < l.length) : get B s i m = some l[i] := by
  obtain ⟨g, hb⟩ := h.body (by rintro rfl; simp at hi)
  have htop := top_displayIdx hB i s.focus
  refine descend_of_look ?_
  rw [hb.shows _ ?_ i htop, hb.vals i hi]
  rcases Nat.lt_or_ge (displayIdx B (i ^^^ s.focus)) s.depth with hl | hl
  · exact hl
  · have hle : 2 ^ (s.depth * B) ≤ 2 ^ (displayIdx B (i ^^^ s.focus) * B) := Nat.pow_le_pow_right (by omega) (Nat.mul_le_mul_right B hl)
    have := hb.room
    have := hb.focus
    have := hb.depth
    exact absurd (by rw [blk, blk, Nat.div_eq_of_lt (by omega), Nat.div_eq_of_lt (by omega)]) (htop.2 (by omega))

/-- the contents with another element at `i` -/
def put (g : Nat → Option T) (i : Nat) (x : T) : Nat → Option T := fun j => if j = i then some x else g j

/-- writing an element into the newest leaf -/
theorem Moved.put {m m0 : Mem T} {D : Disp} {depth new : Nat} {g : Nat → Option T} (h : Moved B m D depth new g m0) (hd : 0 < depth) {i : Nat} (x : T)
    (hi : blk B 1 i = blk B 1 new) :
    ∃ xs m', leaf m (D 0) = some xs ∧ (∀ j, blk B 1 j = blk B 1 new → xs[dig B j 0]?.map some = some (g j)) ∧ setElem m (D 0) (dig B i 0) x = some m' ∧
      Good B m' ∧ Agree m0.length m0 m' ∧ Kinds m' D depth ∧ ∀ u, u < depth → Shows B m' D u new (put g i x) := by
  obtain ⟨a, ha, hfr, ⟨xs, hx⟩, hbel⟩ := h.ptr
  have hlen := h.good.lf hx
  have hal := leaf_lt hx
  have hdl : dig B i 0 < xs.length := by rw [hlen]; exact dig_lt _ _
  have hag := agree_set m a (.leaf (xs.set (dig B i 0) x))
  have hat : leaf (m.set a (.leaf (xs.set (dig B i 0) x))) (some a) = some (xs.set (dig B i 0) x) := leaf_some.2 (List.getElem?_set_self hal)
  have hz : ∀ j, blk B 1 j = blk B 1 new → xs[dig B j 0]?.map some = some (g j) := fun j hj => by
    have := h.shows 0 hd j ⟨hj, fun h => absurd h (by omega)⟩
    rw [ha] at this
    simpa only [look, hx, Option.bind_some] using this
  have hlt : ∀ u, 0 < u → u < depth → ∀ b, D u = some b → b < a := fun u h0 hu b hb => by
    obtain ⟨c, hc, hca⟩ := hbel u h0 hu
    rw [hc] at hb; cases hb; exact hca
  refine ⟨xs, _, by rw [ha]; exact hx, hz, by rw [ha]; exact setElem_eq x hx hdl, h.good.set (c := a) (n := .leaf _) (by simp [NodeOk, hlen]),
    h.agree.trans (hag.mono hfr), ⟨⟨_, by rw [ha]; exact hat⟩, fun t h0 ht => ?_⟩, fun u hu => ?_⟩
  · rw [inner_agree hag (hlt t h0 ht)]; exact h.kinds.inn t h0 ht
  · intro j hj
    rcases Nat.eq_zero_or_pos u with rfl | h0
    · rw [ha]
      simp only [look, hat, Option.bind_some, List.getElem?_set, Dv.put]
      by_cases e : j = i
      · subst e; simp [hdl]
      · rw [if_neg e, if_neg, hz j hj.1]
        intro e'
        apply e
        have h1 := blk_dig (B := B) 0 j
        have h2 := blk_dig (B := B) 0 i
        rw [blk_zero, Nat.zero_mul] at h1 h2
        rw [h1, h2, ← e', hj.1, hi]
    · have e : j ≠ i := fun e => hj.2 h0 (by rw [e]; exact blk_up hi h0)
      rw [Dv.put, if_neg e, look_agree h.good hag j u _ (hlt u h0 hu)]
      exact h.shows u hu j hj

/-- `goto_pos_writable` -/
theorem gotoWritable_ok (hB : 0 < B) {m : Mem T} {s : Impl} {l : List T} {g : Nat → Option T} (hg : Good B m) (h : Body B m s l g) {new : Nat}
    (hn : new < l.length) (size : Nat) :
    ∃ m' D, gotoWritable B s size new m = some (m', ⟨size, new, true, s.depth, D⟩) ∧ Moved B m' D s.depth new g m := by
  have hr := h.room
  have hf := h.focus
  unfold gotoWritable
  cases hd : s.dirty with
  | true =>
      obtain ⟨m', D, he, hm⟩ := fromDirty_ok hB hg h.kinds h.depth h.shows (by omega) (new := new) (by omega) (h.vals new hn) h.tail
      exact ⟨m', D, by simp [he], hm⟩
  | false =>
      obtain ⟨h1, h2⟩ := h.clean hd
      obtain ⟨m', D, he, hm⟩ := copy_leaf_ok hg h.kinds h.depth h.shows (new := new) (by
        rw [show new = 0 by omega, show s.focus = 0 by omega]) h.tail
      refine ⟨m', D, ?_, hm⟩
      simp [gotoWritableFromClean, h1, he]

theorem update_ok (hB : 0 < B) {m : Mem T} {s : Impl} {l : List T} (hg : Good B m) (h : Rep B m s l) {i : Nat} (hi : i < l.length) (f : T → T) :
    ∃ m' s', update B s i f m = some (m', s') ∧ Good B m' ∧ Agree m.length m m' ∧ Rep B m' s' (l.set i (f l[i])) := by
  obtain ⟨g, hb⟩ := h.body (by rintro rfl; simp at hi)
  obtain ⟨m1, D, he, hm⟩ := gotoWritable_ok hB hg hb hi s.size
  obtain ⟨xs, m2, hx, hz, hs, hg2, ha2, hk2, hs2⟩ := hm.put hb.depth (f l[i]) (i := i) rfl
  have hv : xs[dig B i 0]? = some l[i] := by
    have := hz i rfl
    rw [hb.vals i hi] at this
    simpa using this
  refine ⟨m2, ⟨s.size, i, true, s.depth, D⟩, by simp [update, he, hx, hv, hs], hg2, ha2, ⟨by simpa using h.size, fun _ => ⟨put g i (f l[i]), ?_⟩⟩⟩
  refine ⟨hk2, hb.depth, by simpa using hi, by simpa using hb.room, hs2, fun j hj => ?_, fun j hj => ?_, fun h => (by cases h), hm.tail⟩
  · simp only [List.length_set] at hj
    by_cases e : j = i
    · subst e; simp [put]
    · simp only [put, if_neg e, hb.vals j hj, List.getElem_set]
      rw [if_neg (fun h => e h.symm)]
  · simp only [List.length_set] at hj
    have : blk B 1 j * 2 ^ B ≤ j := by simpa [blk] using Nat.div_mul_le_self j (2 ^ B)
    rw [put, if_neg (by omega)]
    exact hb.nulls j hj

variable [Inhabited T]

/-- what `push_back` into a new leaf needs: the loop makes at most one round, or the way to the new leaf is new -/
theorem fresh_cond {l : List T} {g : Nat → Option T} {f : Nat} (hf : f < l.length) (hnull : ∀ i, l.length ≤ blk B 1 i * 2 ^ B → g i = none)
    (hm : l.length = blk B 1 l.length * 2 ^ B) (hc : l.length ≤ 2 ^ (3 * B) ∨ blk B 1 f = blk B 1 (l.length - 1)) {k : Nat} (ht : Top B k f l.length) :
    k ≤ 2 ∨ ∀ j, blk B k j = blk B k l.length → g j = none := by
  have hz : ∀ j, l.length ≤ j → g j = none := fun j hj => hnull j (by
    rw [hm]
    exact Nat.mul_le_mul_right _ (Nat.div_le_div_right hj))
  have hle : ∀ t j, blk B t j * 2 ^ (t * B) ≤ j := fun t j => Nat.div_mul_le_self _ _
  rcases Nat.lt_or_ge k 3 with hk | hk
  · exact .inl (by omega)
  right
  have hge : l.length ≤ blk B k l.length * 2 ^ (k * B) := by
    rcases hc with hc | hc
    · have h0 : blk B k l.length ≠ 0 := by
        intro h0
        have h1 : blk B k f ≠ 0 := fun h1 => ht.2 (by omega) (h1.trans h0.symm)
        have h2 : blk B k f ≤ blk B k l.length := Nat.div_le_div_right (by omega)
        omega
      have h3 : 2 ^ (3 * B) ≤ 2 ^ (k * B) := Nat.pow_le_pow_right (by omega) (Nat.mul_le_mul_right B hk)
      have h4 : 1 * 2 ^ (k * B) ≤ blk B k l.length * 2 ^ (k * B) := Nat.mul_le_mul_right _ (by omega)
      omega
    · by_contra hlt
      rw [Nat.not_le] at hlt
      obtain ⟨u, rfl⟩ : ∃ u, k = u + 1 := ⟨k - 1, by omega⟩
      have e : blk B (u + 1) l.length * 2 ^ ((u + 1) * B) = (blk B (u + 1) l.length * 2 ^ (u * B)) * 2 ^ B := by
        rw [Nat.mul_assoc, ← Nat.pow_add, ← Nat.succ_mul]
      have hB1 : ∀ j, blk B 1 j = j / 2 ^ B := fun j => by simp [blk]
      have h1 : blk B (u + 1) l.length * 2 ^ (u * B) < blk B 1 l.length := by
        rw [e] at hlt
        exact Nat.lt_of_mul_lt_mul_right (a := 2 ^ B) (by omega)
      have h2 : blk B 1 l.length ≤ blk B 1 f + 1 := by
        rw [hc, hB1, hB1]
        have : l.length ≤ (l.length - 1) + 1 := by omega
        have h5 := Nat.div_add_mod (l.length - 1) (2 ^ B)
        have h6 := Nat.mod_lt (l.length - 1) (Nat.two_pow_pos B)
        have h7 : l.length ≤ 2 ^ B * ((l.length - 1) / 2 ^ B + 1) := by rw [Nat.mul_add]; omega
        exact Nat.div_le_of_le_mul h7
      have h3 : blk B (u + 1) l.length * 2 ^ ((u + 1) * B) ≤ f := by
        rw [e]
        refine Nat.le_trans (Nat.mul_le_mul_right _ (show _ ≤ blk B 1 f by omega)) ?_
        simpa using hle 1 f
      have h4 : blk B (u + 1) l.length ≤ blk B (u + 1) f := (Nat.le_div_iff_mul_le (Nat.two_pow_pos _)).2 h3
      have h5 : blk B (u + 1) f ≤ blk B (u + 1) l.length := Nat.div_le_div_right (by omega)
      exact ht.2 (by omega) (by omega)
  intro j hj
  refine hz j (Nat.le_trans hge ?_)
  rw [← hj]; exact hle k j

theorem getElem_concat (l : List T) (x : T) (j : Nat) (hj : j < (l ++ [x]).length) :
    (l ++ [x])[j] = if h : j < l.length then l[j] else x := by
  rw [List.getElem_append]
  split
  · rfl
  · simp at hj; simp

theorem pushBack_ok (hB : 0 < B) {m : Mem T} {s : Impl} {l : List T} (hg : Good B m) (h : Rep B m s l) (hM : l.length < 2 ^ (maxDepth B * B))
    (hc : l.length ≤ 2 ^ (3 * B) ∨ blk B 1 s.focus = blk B 1 (l.length - 1)) (x : T) :
    ∃ m' s', pushBack B s x m = some (m', s') ∧ Good B m' ∧ Agree m.length m m' ∧ Rep B m' s' (l ++ [x]) ∧ blk B 1 s'.focus = blk B 1 l.length := by
  have h2B : 2 ≤ 2 ^ B := by
    have := Nat.pow_le_pow_right (show 0 < 2 by omega) hB
    simpa using this
  by_cases hl : l = []
  · subst hl
    have hs : s.size = 0 := h.size
    have hx : leaf (m ++ [.leaf ((List.replicate (2 ^ B) default).set 0 x)]) (some m.length) = some ((List.replicate (2 ^ B) default).set 0 x) :=
      leaf_some.2 (getElem?_last _ _)
    have hp := Nat.two_pow_pos B
    refine ⟨m ++ [.leaf ((List.replicate (2 ^ B) default).set 0 x)], ⟨1, 0, false, 1, upd (fun _ => none) 0 (some m.length)⟩,
      by simp only [pushBack, hs, ne_eq, not_true, if_false], hg.append (by simp [NodeOk]), agree_append _ _, ⟨rfl, fun _ =>
      ⟨put (fun i => if i < 2 ^ B then some default else none) 0 x, ⟨⟨_, by simp only [upd_same]; exact hx⟩, fun t h0 ht => ?_⟩, Nat.one_pos, by simp, ?_, ?_, ?_, ?_,
        fun _ => ⟨rfl, rfl⟩, fun u (hu : 1 ≤ u) => by simp only [upd, if_neg (show ¬ u = 0 by omega)]⟩⟩, rfl⟩
    · simp only at ht; omega
    · have := Nat.pow_le_pow_right (show 0 < 2 by omega) (Nat.zero_le (1 * B))
      simpa using this
    · intro t ht i hi
      obtain rfl : t = 0 := by simp only at ht; omega
      have h1 := hi.1
      simp only [blk, Nat.zero_div, Nat.zero_add, Nat.one_mul] at h1
      have hi2 : i < 2 ^ B := (Nat.div_eq_zero_iff.1 h1).resolve_left (by omega)
      have e : dig B i 0 = i := by rw [dig_eq]; simp [Nat.mod_eq_of_lt hi2]
      simp only [upd_same, look, hx, Option.bind_some, e, put, if_pos hi2, List.getElem?_set, List.length_replicate, List.getElem?_replicate]
      by_cases e0 : i = 0
      · subst e0; simp
      · rw [if_neg (fun h => e0 h.symm), if_neg e0]; rfl
    · intro i hi
      obtain rfl : i = 0 := by simpa using hi
      simp [put]
    · intro i hi
      have : blk B 1 i * 2 ^ B ≤ i := by simpa [blk] using Nat.div_mul_le_self i (2 ^ B)
      have h1 : blk B 1 i ≠ 0 := by intro h0; rw [h0] at hi; simp at hi
      have h2 : 1 * 2 ^ B ≤ blk B 1 i * 2 ^ B := Nat.mul_le_mul_right _ (by omega)
      rw [put, if_neg (by omega), if_neg (by omega)]
  obtain ⟨g, hb⟩ := h.body hl
  have hl0 : l.length ≠ 0 := fun e => hl (List.length_eq_zero_iff.1 e)
  have hble : blk B 1 l.length * 2 ^ B ≤ l.length := by simpa [blk] using Nat.div_mul_le_self l.length (2 ^ B)
  have hblk : ∀ c, blk B 1 (c * 2 ^ B) = c := fun c => by simp [blk, Nat.mul_div_cancel _ (Nat.two_pow_pos B)]
  have hnb : ∀ j, l.length + 1 ≤ blk B 1 j * 2 ^ B → blk B 1 j ≠ blk B 1 l.length := fun j hj e => by rw [e] at hj; omega
  have hjle : ∀ j, blk B 1 j * 2 ^ B ≤ j := fun j => by simpa [blk] using Nat.div_mul_le_self j (2 ^ B)
  by_cases hsz : l.length = blk B 1 l.length * 2 ^ B
  · have hdirty : s.dirty = true := by
      cases hd : s.dirty with
      | true => rfl
      | false =>
          obtain ⟨_, h1⟩ := hb.clean hd
          have hlt : l.length / 2 ^ B = 0 := Nat.div_eq_of_lt (by omega)
          have : blk B 1 l.length = 0 := by simpa [blk] using hlt
          rw [this] at hsz; omega
    have hf := hb.focus
    have hne : blk B 1 s.focus ≠ blk B 1 l.length := fun e => by
      have := hjle s.focus
      rw [e] at this; omega
    obtain ⟨m1, D, d', he, hmv, hd', hroom⟩ := freshDirty_ok hB hg hb.kinds hb.depth hb.shows (by have := hb.room; omega) hb.room hne hM
      (by omega) (fun i hi => hb.nulls i (by
        have := hb.room
        rw [hsz]
        exact Nat.mul_le_mul_right _ (Nat.div_le_div_right (by omega))))
      (fun k hk => fresh_cond hf hb.nulls hsz hc hk) hb.tail
    have hd0 : 0 < d' := by have := hb.depth; omega
    obtain ⟨xs, m2, hx, hz, hs, hg2, ha2, hk2, hs2⟩ := hmv.put hd0 x (i := l.length) rfl
    refine ⟨m2, ⟨s.size + 1, l.length, true, d', D⟩, ?_, hg2, ha2, ⟨by simp [h.size], fun _ => ⟨_, hk2, hd0, by simp, by simp; omega, hs2,
      fun j hj => ?_, fun j hj => ?_, fun h => (by cases h), hmv.tail⟩⟩, rfl⟩
    · unfold pushBack
      rw [h.size, if_pos hl0, block_eq, ← hsz, if_neg (by simp)]
      simp only [gotoFresh, hdirty, if_true, he, Option.map_some, Option.bind_some, hs]
    · rw [getElem_concat]
      simp only [List.length_append, List.length_singleton] at hj
      by_cases e : j = l.length
      · subst e; simp [put]
      · rw [dif_pos (by omega), put, if_neg e, withLeaf, if_neg, hb.vals j (by omega)]
        intro e'
        have := hjle j
        rw [e'] at this; omega
    · simp only [List.length_append, List.length_singleton] at hj
      have := hjle j
      rw [put, if_neg (by omega), withLeaf, if_neg (hnb j hj)]
      exact hb.nulls j (by omega)
  · obtain ⟨m1, D, he, hmv⟩ := gotoWritable_ok hB hg hb (new := blk B 1 l.length * 2 ^ B) (by omega) (s.size + 1)
    obtain ⟨xs, m2, hx, hz, hs, hg2, ha2, hk2, hs2⟩ := hmv.put hb.depth x (i := l.length) (by rw [hblk])
    refine ⟨m2, ⟨s.size + 1, blk B 1 l.length * 2 ^ B, true, s.depth, D⟩, ?_, hg2, ha2, ⟨by simp [h.size], fun _ => ⟨_, hk2, hb.depth,
      by simp; omega, ?_, hs2, fun j hj => ?_, fun j hj => ?_, fun h => (by cases h), hmv.tail⟩⟩, hblk _⟩
    · unfold pushBack
      rw [h.size, if_pos hl0, block_eq, if_pos hsz, ← h.size]
      rw [h.size] at he ⊢
      simp only [he, Option.bind_some, hs, Option.map_some]
    · have hr := hb.room
      have hd := hb.depth
      simp only [List.length_append, List.length_singleton]
      rcases Nat.lt_or_eq_of_le hr with h1 | h1
      · exact h1
      · exfalso
        apply hsz
        obtain ⟨u, hu⟩ : ∃ u, s.depth = u + 1 := ⟨s.depth - 1, by omega⟩
        rw [hu, Nat.succ_mul, Nat.pow_add] at h1
        conv_lhs => rw [h1]
        rw [h1, hblk]
    · rw [getElem_concat]
      simp only [List.length_append, List.length_singleton] at hj
      by_cases e : j = l.length
      · subst e; simp [put]
      · rw [dif_pos (by omega), put, if_neg e, hb.vals j (by omega)]
    · simp only [List.length_append, List.length_singleton] at hj
      have := hjle j
      rw [put, if_neg (by omega)]
      exact hb.nulls j (by omega)

end Dv
