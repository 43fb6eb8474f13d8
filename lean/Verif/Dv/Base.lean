import Verif.Dv.Model
import Mathlib.Data.Nat.Bitwise
import Mathlib.Tactic.Positivity

/-! Arithmetic of positions and what is found below a node. -/

namespace Dv

variable {T : Type} {B : Nat}

/-- the node on level `t - 1` that a position is under -/
def blk (B t i : Nat) : Nat := i / 2 ^ (t * B)

theorem dig_eq (i s : Nat) : dig B i s = i / 2 ^ s % 2 ^ B := by
  simp [dig, Nat.shiftRight_eq_div_pow, Nat.and_two_pow_sub_one_eq_mod]

theorem dig_lt (i s : Nat) : dig B i s < 2 ^ B := by rw [dig_eq]; exact Nat.mod_lt _ (Nat.two_pow_pos B)

theorem blk_succ (t i : Nat) : blk B (t + 1) i = blk B t i / 2 ^ B := by
  rw [blk, blk, Nat.div_div_eq_div_mul, ← Nat.pow_add, Nat.succ_mul]

theorem blk_zero (i : Nat) : blk B 0 i = i := by simp [blk]

theorem blk_dig (t i : Nat) : blk B t i = 2 ^ B * blk B (t + 1) i + dig B i (t * B) := by
  rw [blk_succ, dig_eq, ← blk, Nat.div_add_mod]

theorem blk_up {t u i f : Nat} (h : blk B t i = blk B t f) (hu : t ≤ u) : blk B u i = blk B u f := by
  induction u, hu using Nat.le_induction with
  | base => exact h
  | succ u _ ih => rw [blk_succ, blk_succ, ih]

theorem dig_congr {t i f : Nat} (h : blk B t i = blk B t f) : dig B i (t * B) = dig B f (t * B) := by
  rw [dig_eq, dig_eq, ← blk, ← blk, h]

theorem dig_ne {t i f : Nat} (h : blk B (t + 1) i = blk B (t + 1) f) (hn : blk B t i ≠ blk B t f) : dig B i (t * B) ≠ dig B f (t * B) := by
  intro hd
  exact hn (by rw [blk_dig, blk_dig t f, h, hd])

/-- level `t` is the lowest one whose node is over both positions -/
def Top (B t i f : Nat) : Prop := blk B (t + 1) i = blk B (t + 1) f ∧ (0 < t → blk B t i ≠ blk B t f)

theorem shr_eq_iff (i f n : Nat) : i / 2 ^ n = f / 2 ^ n ↔ i ^^^ f < 2 ^ n := by
  rw [← Nat.shiftRight_eq_div_pow, ← Nat.shiftRight_eq_div_pow]
  constructor
  · intro h
    have : (i ^^^ f) >>> n = 0 := by rw [Nat.shiftRight_xor_distrib, h, Nat.xor_self]
    rw [Nat.shiftRight_eq_div_pow] at this
    exact (Nat.div_eq_zero_iff.1 this).resolve_left (by positivity)
  · intro h
    have : (i >>> n) ^^^ (f >>> n) = 0 := by
      rw [← Nat.shiftRight_xor_distrib, Nat.shiftRight_eq_div_pow]; exact Nat.div_eq_of_lt h
    exact Nat.xor_eq_zero_iff.1 this

theorem top_displayIdx (hB : 0 < B) (i f : Nat) : Top B (displayIdx B (i ^^^ f)) i f := by
  unfold Top blk
  refine ⟨(shr_eq_iff _ _ _).2 ?_, fun h0 => ?_⟩
  · refine Nat.lt_of_lt_of_le Nat.lt_log2_self (Nat.pow_le_pow_right (by omega) ?_)
    have := Nat.lt_div_mul_add hB (a := Nat.log2 (i ^^^ f))
    rw [displayIdx, Nat.succ_mul]; omega
  · rw [Ne, shr_eq_iff, Nat.not_lt]
    have hx : i ^^^ f ≠ 0 := by intro hz; simp [displayIdx, hz, Nat.log2] at h0
    exact (Nat.le_log2 hx).1 (Nat.div_mul_le_self _ _)

theorem Top.unique {t u i f : Nat} (h : Top B t i f) (h' : Top B u i f) : t = u := by
  rcases Nat.lt_trichotomy t u with hl | he | hl
  · exact absurd (blk_up h.1 hl) (h'.2 (by omega))
  · exact he
  · exact absurd (blk_up h'.1 hl) (h.2 (by omega))

theorem Top.comm {t i f : Nat} (h : Top B t i f) : Top B t f i := ⟨h.1.symm, fun h0 he => h.2 h0 he.symm⟩

theorem block_eq (i : Nat) : block B i = blk B 1 i * 2 ^ B := by
  simp [block, blk, Nat.shiftRight_eq_div_pow, Nat.shiftLeft_eq]

/-- what is below a node of level `j` at position `i`: `none` if the pointers are wrong, `some none` if a pointer is null -/
def look (B : Nat) (m : Mem T) : Nat → Option Nat → Nat → Option (Option T)
  | _, none, _ => some none
  | 0, some a, i => (leaf m (some a)).bind fun xs => xs[dig B i 0]?.map some
  | j + 1, some a, i => (inner m (some a)).bind fun ps => ps[dig B i ((j + 1) * B)]?.bind fun q => look B m j q i

@[simp] theorem look_none (m : Mem T) (j i : Nat) : look B m j none i = some none := by cases j <;> rfl

theorem descend_of_look {m : Mem T} {i : Nat} {v : T} : ∀ {j : Nat} {p : Option Nat}, look B m j p i = some (some v) →
    descend B m i j p (j * B) = some v
  | 0, none, h | _ + 1, none, h => by simp at h
  | 0, some a, h => by
      simp only [look, Option.bind_eq_some_iff, Option.map_eq_some_iff] at h
      obtain ⟨xs, hx, w, hw, he⟩ := h
      cases he
      simp [descend, hx, hw]
  | j + 1, some a, h => by
      simp only [look, Option.bind_eq_some_iff] at h
      obtain ⟨ps, hp, q, hq, he⟩ := h
      have := descend_of_look he
      simp only [descend, hp, hq, Option.bind_some]
      rw [Nat.succ_mul, Nat.add_sub_cancel]
      exact this

theorem inner_some {m : Mem T} {a : Nat} {ps : List (Option Nat)} : inner m (some a) = some ps ↔ m[a]? = some (.inner ps) := by
  unfold inner
  simp only [Option.bind_some]
  split <;> simp_all

theorem leaf_some {m : Mem T} {a : Nat} {xs : List T} : leaf m (some a) = some xs ↔ m[a]? = some (.leaf xs) := by
  unfold leaf
  simp only [Option.bind_some]
  split <;> simp_all

@[simp] theorem inner_none (m : Mem T) : inner m none = none := rfl
@[simp] theorem leaf_none (m : Mem T) : leaf m none = none := rfl

theorem inner_eq {m m' : Mem T} {a : Nat} (h : m'[a]? = m[a]?) : inner m' (some a) = inner m (some a) := by simp [inner, h]
theorem leaf_eq {m m' : Mem T} {a : Nat} (h : m'[a]? = m[a]?) : leaf m' (some a) = leaf m (some a) := by simp [leaf, h]

/-- a node has `2^B` entries, and points to nodes older than `a` -/
def NodeOk (B a : Nat) : Node T → Prop
  | .leaf xs => xs.length = 2 ^ B
  | .inner ps => ps.length = 2 ^ B ∧ ∀ q, some q ∈ ps → q < a

/-- nodes have `2^B` entries, and point to older nodes -/
def Good (B : Nat) (m : Mem T) : Prop := ∀ a n, m[a]? = some n → NodeOk B a n

theorem Good.inn {m : Mem T} (h : Good B m) {a : Nat} {ps : List (Option Nat)} (hp : inner m (some a) = some ps) :
    ps.length = 2 ^ B ∧ ∀ q, some q ∈ ps → q < a := h a _ (inner_some.1 hp)

theorem Good.lf {m : Mem T} (h : Good B m) {a : Nat} {xs : List T} (hp : leaf m (some a) = some xs) :
    xs.length = 2 ^ B := h a _ (leaf_some.1 hp)

theorem inner_lt {m : Mem T} {a : Nat} {ps : List (Option Nat)} (hp : inner m (some a) = some ps) : a < m.length :=
  (List.getElem?_eq_some_iff.1 (inner_some.1 hp)).1

theorem leaf_lt {m : Mem T} {a : Nat} {xs : List T} (hp : leaf m (some a) = some xs) : a < m.length :=
  (List.getElem?_eq_some_iff.1 (leaf_some.1 hp)).1

theorem Good.append {m : Mem T} (h : Good B m) {n : Node T} (hn : NodeOk B m.length n) : Good B (m ++ [n]) := by
  intro a k hk
  rw [List.getElem?_append] at hk
  split at hk
  · exact h a k hk
  · rename_i hl
    rw [List.getElem?_singleton] at hk
    split at hk
    · cases hk
      obtain rfl : a = m.length := by omega
      exact hn
    · cases hk

theorem Good.set {m : Mem T} (h : Good B m) {n : Node T} {c : Nat} (hn : NodeOk B c n) : Good B (m.set c n) := by
  intro a k hk
  rw [List.getElem?_set] at hk
  split at hk
  · rename_i hc
    subst hc
    split at hk
    · cases hk; exact hn
    · cases hk
  · exact h a k hk

/-- memories that agree below `n` -/
def Agree (n : Nat) (m m' : Mem T) : Prop := ∀ b, b < n → m'[b]? = m[b]?

theorem Agree.refl (n : Nat) (m : Mem T) : Agree n m m := fun _ _ => rfl
theorem Agree.trans {n : Nat} {m m' m'' : Mem T} (h : Agree n m m') (h' : Agree n m' m'') : Agree n m m'' :=
  fun b hb => (h' b hb).trans (h b hb)
theorem Agree.mono {n k : Nat} {m m' : Mem T} (h : Agree n m m') (hk : k ≤ n) : Agree k m m' := fun b hb => h b (by omega)
theorem agree_append (m k : Mem T) : Agree m.length m (m ++ k) := fun _ hb => List.getElem?_append_left hb
theorem agree_set (m : Mem T) (a : Nat) (n : Node T) : Agree a m (m.set a n) := fun b hb => by rw [List.getElem?_set]; simp; omega

theorem look_agree {m m' : Mem T} (hg : Good B m) {n : Nat} (ha : Agree n m m') (i : Nat) : ∀ (j : Nat) (p : Option Nat),
    (∀ a, p = some a → a < n) → look B m' j p i = look B m j p i
  | _, none, _ => by simp
  | 0, some a, h => by simp only [look, leaf_eq (ha a (h a rfl))]
  | j + 1, some a, h => by
      simp only [look, inner_eq (ha a (h a rfl))]
      cases hp : inner m (some a) with
      | none => rfl
      | some ps =>
          simp only [Option.bind_some]
          cases hq : ps[dig B i ((j + 1) * B)]? with
          | none => rfl
          | some q =>
              refine look_agree hg ha i j q fun b hb => ?_
              subst hb
              exact Nat.lt_trans ((hg.inn hp).2 b (List.mem_of_getElem? hq)) (h a rfl)

/-- the nodes of the display have the right kinds -/
structure Kinds (m : Mem T) (D : Disp) (depth : Nat) : Prop where
  zero : ∃ xs, leaf m (D 0) = some xs
  inn : ∀ t, 0 < t → t < depth → ∃ ps, inner m (D t) = some ps

theorem Kinds.lt {m : Mem T} {D : Disp} {depth : Nat} (h : Kinds m D depth) {t : Nat} (ht : t < depth) :
    ∃ a, D t = some a ∧ a < m.length := by
  cases t with
  | zero =>
      obtain ⟨xs, hx⟩ := h.zero
      cases hd : D 0 with
      | none => simp [hd] at hx
      | some a => rw [hd] at hx; exact ⟨a, rfl, leaf_lt hx⟩
  | succ t =>
      obtain ⟨xs, hx⟩ := h.inn (t + 1) (by omega) ht
      cases hd : D (t + 1) with
      | none => simp [hd] at hx
      | some a => rw [hd] at hx; exact ⟨a, rfl, inner_lt hx⟩

theorem inner_agree {m m' : Mem T} {n : Nat} (ha : Agree n m m') {p : Option Nat} (h : ∀ a, p = some a → a < n) :
    inner m' p = inner m p := by
  cases p with
  | none => rfl
  | some a => exact inner_eq (ha a (h a rfl))

theorem leaf_agree {m m' : Mem T} {n : Nat} (ha : Agree n m m') {p : Option Nat} (h : ∀ a, p = some a → a < n) :
    leaf m' p = leaf m p := by
  cases p with
  | none => rfl
  | some a => exact leaf_eq (ha a (h a rfl))

/-- the display's node on level `t` shows what is under it, also on the way to `f` -/
def Full (B : Nat) (m : Mem T) (D : Disp) (t f : Nat) (g : Nat → Option T) : Prop :=
  ∀ i, blk B (t + 1) i = blk B (t + 1) f → look B m t (D t) i = some (g i)

/-- the display's node on level `t` shows what is under it, except on the way to `f` -/
def Shows (B : Nat) (m : Mem T) (D : Disp) (t f : Nat) (g : Nat → Option T) : Prop :=
  ∀ i, Top B t i f → look B m t (D t) i = some (g i)

theorem Full.shows {m : Mem T} {D : Disp} {t f : Nat} {g : Nat → Option T} (h : Full B m D t f g) : Shows B m D t f g :=
  fun i hi => h i hi.1

theorem Shows.full {m : Mem T} {D : Disp} {f : Nat} {g : Nat → Option T} (h : Shows B m D 0 f g) : Full B m D 0 f g :=
  fun i hi => h i ⟨hi, fun h => absurd h (by omega)⟩

theorem Full.congr {m m' : Mem T} {D D' : Disp} {t f f' : Nat} {g : Nat → Option T} (h : Full B m D t f g) (hg : Good B m) {n : Nat}
    (ha : Agree n m m') (hl : ∀ a, D t = some a → a < n) (hD : D' t = D t) (hf : blk B (t + 1) f = blk B (t + 1) f') :
    Full B m' D' t f' g :=
  fun i hi => by rw [hD, look_agree hg ha i t _ hl]; exact h i (hi.trans hf.symm)

theorem Shows.congr {m m' : Mem T} {D D' : Disp} {t f : Nat} {g : Nat → Option T} (h : Shows B m D t f g) (hg : Good B m) {n : Nat}
    (ha : Agree n m m') (hl : ∀ a, D t = some a → a < n) (hD : D' t = D t) : Shows B m' D' t f g :=
  fun i hi => by rw [hD, look_agree hg ha i t _ hl]; exact h i hi

end Dv
