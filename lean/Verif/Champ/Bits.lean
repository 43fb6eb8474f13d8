import Verif.Champ.Sparse
import Mathlib.Data.Nat.Bitwise
import Mathlib.Tactic.Ring
import Mathlib.Order.Nat
import Mathlib.Data.Nat.Find

/-!
# Bit tricks of `immer/detail/hamts/bits.hpp`: `popcount_fallback` and `set_bits_range` (C09)
-/

namespace Champ

/-! ## model -/

/-- bits.hpp 67-77: `popcount_fallback(std::uint32_t)` (unsigned arithmetic wraps modulo 2^32) -/
def popcountFallback32 (x0 : BitVec 32) : BitVec 32 :=
  let x1 := x0 - ((x0 >>> 1) &&& 0x55555555#32)
  let x2 := (x1 &&& 0x33333333#32) + ((x1 >>> 2) &&& 0x33333333#32)
  (((x2 + (x2 >>> 4)) &&& 0xF0F0F0F#32) * 0x1010101#32) >>> 24

/-- bits.hpp 79-85: `popcount_fallback(std::uint64_t)` -/
def popcountFallback64 (x0 : BitVec 64) : BitVec 64 :=
  let x1 := x0 - ((x0 >>> 1) &&& 0x5555555555555555#64)
  let x2 := (x1 &&& 0x3333333333333333#64) + ((x1 >>> 2) &&& 0x3333333333333333#64)
  (((x2 + (x2 >>> 4)) &&& 0x0F0F0F0F0F0F0F0F#64) * 0x0101010101010101#64) >>> 56

/-- bits.hpp 137-140 `clearlsbit` -/
def clearlsbit {w : Nat} (bm : BitVec w) : BitVec w := bm &&& (bm - 1#w)

/-- bits.hpp 142-145 `lsbit` -/
def lsbit {w : Nat} (bm : BitVec w) : BitVec w := bm ^^^ clearlsbit bm

theorem clearlsbit_lt {w : Nat} {bm : BitVec w} (h : bm ≠ 0#w) :
    (clearlsbit bm).toNat < bm.toNat := by
  have hpos : 0 < bm.toNat := by
    rcases Nat.eq_zero_or_pos bm.toNat with h0 | h0
    · exact absurd (BitVec.eq_of_toNat_eq (by simpa using h0)) h
    · exact h0
  have hw : 0 < w := by
    rcases Nat.eq_zero_or_pos w with rfl | h0
    · have := bm.isLt; simp at this; omega
    · exact h0
  have h1 : (bm - 1#w).toNat = bm.toNat - 1 := by
    rw [BitVec.toNat_sub_of_le]
    · congr 1
      rw [BitVec.toNat_ofNat]
      exact Nat.mod_eq_of_lt (Nat.one_lt_two_pow (by omega))
    · rw [BitVec.le_def, BitVec.toNat_ofNat, Nat.mod_eq_of_lt (Nat.one_lt_two_pow (by omega))]
      exact hpos
  rw [clearlsbit, BitVec.toNat_and, h1]
  exact Nat.lt_of_le_of_lt Nat.and_le_right (by omega)

/-- bits.hpp 128-173: the sequence produced by `for (auto bit : set_bits_range(bitmap))` -/
def setBits {w : Nat} (bm : BitVec w) : List (BitVec w) :=
  if bm = 0#w then [] else lsbit bm :: setBits (clearlsbit bm)
termination_by bm.toNat
decreasing_by rename_i h; exact clearlsbit_lt h

/-! ## set_bits_range -/

theorem testBit_pred {n i : Nat} (hi : n.testBit i = true) (hlow : ∀ j < i, n.testBit j = false)
    (j : Nat) : (n - 1).testBit j = if j < i then true else if j = i then false else n.testBit j := by
  have hn : n = 2 ^ i * (n / 2 ^ i) := by
    have hmod : n % 2 ^ i = 0 := by
      apply Nat.eq_of_testBit_eq
      intro j
      rw [Nat.testBit_mod_two_pow]
      by_cases hj : j < i
      · simp [hlow j hj]
      · simp [hj]
    have := Nat.div_add_mod n (2 ^ i)
    omega
  have hodd : (n / 2 ^ i) % 2 = 1 := by
    rw [Nat.testBit_eq_decide_div_mod_eq] at hi; simpa using hi
  generalize n / 2 ^ i = m at hn hodd
  have hpos := Nat.two_pow_pos i
  have h1 : n - 1 = 2 ^ i * (m - 1) + (2 ^ i - 1) := by
    have : m = (m - 1) + 1 := by omega
    have h2 : 2 ^ i * m = 2 ^ i * (m - 1) + 2 ^ i := by
      conv_lhs => rw [this]
      ring
    omega
  rw [h1, Nat.testBit_two_pow_mul_add _ (by omega)]
  by_cases hj : j < i
  · simp [hj, Nat.testBit_two_pow_sub_one]
  · simp only [hj, if_false]
    by_cases hji : j = i
    · subst hji
      simp only [Nat.sub_self, if_true, Nat.testBit_zero]
      simp; omega
    · simp only [hji, if_false]
      rw [hn, Nat.testBit_two_pow_mul]
      have hge : i ≤ j := by omega
      simp only [hge, decide_true, Bool.true_and]
      have hk : j - i = (j - i - 1) + 1 := by omega
      rw [hk, Nat.testBit_succ, Nat.testBit_succ]
      congr 1
      omega

theorem exists_lowest {w : Nat} {bm : BitVec w} (h : bm ≠ 0#w) :
    ∃ i, bm.getLsbD i = true ∧ ∀ j < i, bm.getLsbD j = false := by
  have hex : ∃ i, bm.getLsbD i = true := by
    by_contra hne
    push Not at hne
    apply h
    apply BitVec.eq_of_getLsbD_eq
    intro i _
    simpa using hne i
  classical
  refine ⟨Nat.find hex, Nat.find_spec hex, fun j hj => ?_⟩
  simpa using Nat.find_min hex hj

theorem clearlsbit_eq {w : Nat} {bm : BitVec w} {i : Nat} (hi : bm.getLsbD i = true)
    (hlow : ∀ j < i, bm.getLsbD j = false) : clearlsbit bm = bm &&& ~~~ bitOf w i := by
  have hw := lt_of_getLsbD hi
  apply BitVec.eq_of_getLsbD_eq
  intro j hj
  rw [getLsbD_andNot hw]
  have hge : 1 ≤ bm.toNat := by
    rcases Nat.eq_zero_or_pos bm.toNat with h0 | h0
    · have : bm = 0#w := BitVec.eq_of_toNat_eq (by simpa using h0)
      rw [this] at hi; simp at hi
    · exact h0
  have h1 : (bm - 1#w).toNat = bm.toNat - 1 := by
    have h1w : (1#w).toNat = 1 := by
      rw [BitVec.toNat_ofNat]; exact Nat.mod_eq_of_lt (Nat.one_lt_two_pow (by omega))
    rw [BitVec.toNat_sub_of_le]
    · rw [h1w]
    · rw [BitVec.le_def, h1w]; exact hge
  have h2 : (bm - 1#w).getLsbD j = (bm.toNat - 1).testBit j := by
    rw [← h1]; rfl
  have h3 := testBit_pred (n := bm.toNat) (i := i) hi hlow j
  rw [clearlsbit, BitVec.getLsbD_and, h2, h3]
  by_cases hji : j < i
  · simp [hlow j hji]
  · by_cases hje : j = i
    · simp [hje]
    · simp only [hji, hje, if_false]
      have : bm.toNat.testBit j = bm.getLsbD j := rfl
      rw [this]; simp [hje]

theorem lsbit_eq {w : Nat} {bm : BitVec w} {i : Nat} (hi : bm.getLsbD i = true)
    (hlow : ∀ j < i, bm.getLsbD j = false) : lsbit bm = bitOf w i := by
  have hw := lt_of_getLsbD hi
  apply BitVec.eq_of_getLsbD_eq
  intro j hj
  rw [lsbit, clearlsbit_eq hi hlow, BitVec.getLsbD_xor, getLsbD_andNot hw, getLsbD_bitOf hw]
  by_cases hji : j = i
  · simp [hji, hi]
  · have : ¬ i = j := fun h => hji h.symm
    cases bm.getLsbD j <;> simp [hji]

theorem range_filter_lowest (n : Nat) (p : Nat → Bool) {i : Nat} (hin : i < n) (hi : p i = true)
    (hlow : ∀ j < i, p j = false) :
    (List.range n).filter p = i :: (List.range n).filter (fun j => p j && decide (j ≠ i)) := by
  obtain ⟨m, rfl⟩ : ∃ m, n = i + (m + 1) := ⟨n - i - 1, by omega⟩
  rw [List.range_add, List.range_succ_eq_map, List.filter_append, List.filter_append]
  have e1 : (List.range i).filter p = [] := by
    rw [List.filter_eq_nil_iff]
    intro j hj; simp [hlow j (List.mem_range.mp hj)]
  have e2 : (List.range i).filter (fun j => p j && decide (j ≠ i)) = [] := by
    rw [List.filter_eq_nil_iff]
    intro j hj; simp [hlow j (List.mem_range.mp hj)]
  rw [e1, e2]
  simp only [List.nil_append, List.map_cons, Nat.add_zero, List.filter_cons, hi, if_true, ne_eq,
    not_true_eq_false, decide_false, Bool.and_false, Bool.false_eq_true, if_false]
  congr 1
  apply List.filter_congr
  intro j hj
  have : j ≠ i := by
    simp only [List.map_map, List.mem_map, Function.comp] at hj
    obtain ⟨a, _, rfl⟩ := hj
    omega
  simp [this]

/-- iterating a bitmap yields its one-bit masks in increasing position -/
theorem setBits_eq {w : Nat} (bm : BitVec w) :
    setBits bm = ((List.range w).filter (fun i => bm.getLsbD i)).map (bitOf w) := by
  induction hn : bm.toNat using Nat.strong_induction_on generalizing bm with
  | _ n ih =>
    rw [setBits]
    by_cases h : bm = 0#w
    · rw [if_pos h, h]
      symm
      rw [List.map_eq_nil_iff, List.filter_eq_nil_iff]
      intro i _; simp
    · rw [if_neg h]
      obtain ⟨i, hi, hlow⟩ := exists_lowest h
      have hw := lt_of_getLsbD hi
      rw [ih _ (by rw [← hn]; exact clearlsbit_lt h) _ rfl, lsbit_eq hi hlow, clearlsbit_eq hi hlow,
        range_filter_lowest w _ hw hi hlow, List.map_cons]
      congr 2
      apply List.filter_congr
      intro j _
      rw [getLsbD_andNot hw]

/-! ## popcount_fallback -/

theorem and_split8 (a b c d : Nat) (hb : b < 256) (hd : d < 256) :
    (256 * a + b) &&& (256 * c + d) = 256 * (a &&& c) + (b &&& d) := by
  have hbd : b &&& d < 2 ^ 8 := Nat.lt_of_le_of_lt Nat.and_le_left hb
  apply Nat.eq_of_testBit_eq
  intro i
  have e : ∀ x y, 256 * x + y = 2 ^ 8 * x + y := fun _ _ => rfl
  rw [Nat.testBit_and, e a b, e c d, e (a &&& c) (b &&& d), Nat.testBit_two_pow_mul_add _ hb,
    Nat.testBit_two_pow_mul_add _ hd, Nat.testBit_two_pow_mul_add _ hbd]
  by_cases hi : i < 8 <;> simp [hi]

/-- number of one bits among the low `n` -/
def cntN (x n : Nat) : Nat := (List.range n).countP (fun i => x.testBit i)

theorem cntN_split (q r n : Nat) (hr : r < 256) : cntN (256 * q + r) (8 + n) = cntN r 8 + cntN q n := by
  unfold cntN
  have e : ∀ x y, 256 * x + y = 2 ^ 8 * x + y := fun _ _ => rfl
  rw [List.range_add, List.countP_append, List.countP_map]
  congr 1
  · apply List.countP_congr
    intro i hi
    rw [List.mem_range] at hi
    rw [e, Nat.testBit_two_pow_mul_add _ hr]; simp [hi]
  · apply List.countP_congr
    intro i _
    rw [Function.comp, e, Nat.testBit_two_pow_mul_add _ hr]
    simp

/-- the three lane-wise steps on natural numbers, for the masks `m1`, `m2`, `m4` -/
def swar (m1 m2 m4 x : Nat) : Nat :=
  let x1 := x - ((x / 2) &&& m1)
  let x2 := (x1 &&& m2) + ((x1 / 4) &&& m2)
  (x2 + x2 / 16) &&& m4

theorem byte_step1 : ∀ t < 2, ∀ r < 256, (128 * t + r / 2) &&& 0x55 = (r / 2) &&& 0x55 := by decide +kernel
theorem byte_step2 : ∀ t < 4, ∀ r < 256, (64 * t + r / 4) &&& 0x33 = (r / 4) &&& 0x33 := by decide +kernel
theorem byte_step3 : ∀ t < 16, ∀ r < 136, (r + 16 * t + r / 16) &&& 0x0F = (r + r / 16) &&& 0x0F := by
  decide +kernel
theorem byte_x1 : ∀ r < 256, ((r / 2) &&& 0x55) ≤ r ∧ r - ((r / 2) &&& 0x55) < 256 := by decide +kernel
theorem byte_x2 : ∀ r < 256, ((r &&& 0x33) + ((r / 4) &&& 0x33)) < 0x67 := by decide +kernel
theorem byte_nib : ∀ r < 256, ((r - ((r / 2) &&& 0x55)) &&& 0x33) + (((r - ((r / 2) &&& 0x55)) / 4) &&& 0x33)
    ≤ 0x44 ∧ (((r - ((r / 2) &&& 0x55)) &&& 0x33) + (((r - ((r / 2) &&& 0x55)) / 4) &&& 0x33)) % 16 ≤ 4 := by
  decide +kernel
theorem byte_swar : ∀ r < 256, swar 0x55 0x33 0x0F r = cntN r 8 := by decide +kernel
theorem byte_cnt : ∀ r < 256, cntN r 8 ≤ 8 := by decide +kernel

/-- low nibble bound of the second step, needed to see that no carry leaves a byte -/
def NibOK (m1 m2 x : Nat) : Prop :=
  ((x - ((x / 2) &&& m1)) &&& m2) % 16 + (((x - ((x / 2) &&& m1)) / 4) &&& m2) % 16 ≤ 4 ∧
  (x / 2) &&& m1 ≤ x

theorem swar_split (m1 m2 m4 q r : Nat) (hr : r < 256) (hq : NibOK m1 m2 q) :
    swar (256 * m1 + 0x55) (256 * m2 + 0x33) (256 * m4 + 0x0F) (256 * q + r) =
      256 * swar m1 m2 m4 q + swar 0x55 0x33 0x0F r ∧
    NibOK (256 * m1 + 0x55) (256 * m2 + 0x33) (256 * q + r) := by
  obtain ⟨hq1, hq2⟩ := hq
  have h1 : ((256 * q + r) / 2) &&& (256 * m1 + 0x55) = 256 * ((q / 2) &&& m1) + ((r / 2) &&& 0x55) := by
    rw [show (256 * q + r) / 2 = 256 * (q / 2) + (128 * (q % 2) + r / 2) by omega,
      and_split8 _ _ _ _ (by omega) (by omega), byte_step1 _ (Nat.mod_lt _ (by omega)) _ hr]
  have hx := byte_x1 r hr
  set a := (q / 2) &&& m1
  set b := (r / 2) &&& 0x55
  have e1 : 256 * q + r - (256 * a + b) = 256 * (q - a) + (r - b) := by omega
  set q1 := q - a
  set r1 := r - b
  have hr1 : r1 < 256 := hx.2
  have h2 : (256 * q1 + r1) &&& (256 * m2 + 0x33) = 256 * (q1 &&& m2) + (r1 &&& 0x33) :=
    and_split8 _ _ _ _ hr1 (by omega)
  have h3 : ((256 * q1 + r1) / 4) &&& (256 * m2 + 0x33) = 256 * ((q1 / 4) &&& m2) + ((r1 / 4) &&& 0x33) := by
    rw [show (256 * q1 + r1) / 4 = 256 * (q1 / 4) + (64 * (q1 % 4) + r1 / 4) by omega,
      and_split8 _ _ _ _ (by omega) (by omega), byte_step2 _ (Nat.mod_lt _ (by omega)) _ hr1]
  have hn := byte_nib r hr
  have hn1 : (r1 &&& 0x33) + ((r1 / 4) &&& 0x33) ≤ 0x44 := hn.1
  have hn2 : ((r1 &&& 0x33) + ((r1 / 4) &&& 0x33)) % 16 ≤ 4 := hn.2
  have hle1 : (r1 &&& 0x33) ≤ 0x33 := Nat.and_le_right
  have hle2 : ((r1 / 4) &&& 0x33) ≤ 0x33 := Nat.and_le_right
  constructor
  · simp only [swar]
    rw [h1, e1, h2, h3]
    have hq1' : ((q1 &&& m2) + ((q1 / 4) &&& m2)) % 16 ≤ 4 := by
      rw [Nat.add_mod]
      exact Nat.le_trans (Nat.mod_le _ _) hq1
    set q2 := (q1 &&& m2) + ((q1 / 4) &&& m2)
    rw [show 256 * (q1 &&& m2) + (r1 &&& 0x33) + (256 * ((q1 / 4) &&& m2) + ((r1 / 4) &&& 0x33)) =
      256 * q2 + ((r1 &&& 0x33) + ((r1 / 4) &&& 0x33)) by omega]
    set r2 := (r1 &&& 0x33) + ((r1 / 4) &&& 0x33)
    rw [show 256 * q2 + r2 + (256 * q2 + r2) / 16 =
      256 * (q2 + q2 / 16) + (r2 + 16 * (q2 % 16) + r2 / 16) by omega,
      and_split8 _ _ _ _ (by omega) (by omega), byte_step3 _ (Nat.mod_lt _ (by omega)) _ (by omega)]
  · constructor
    · rw [h1, e1, h2, h3]
      have e2 : ∀ a b : Nat, (256 * a + b) % 16 = b % 16 := by omega
      rw [e2, e2]
      have key : ∀ r < 256, ((r - ((r / 2) &&& 0x55)) &&& 0x33) % 16 +
          (((r - ((r / 2) &&& 0x55)) / 4) &&& 0x33) % 16 ≤ 4 := by decide +kernel
      exact key r hr
    · rw [h1]; omega

theorem nibOK_byte (r : Nat) (hr : r < 256) : NibOK 0x55 0x33 r := by
  constructor
  · have key : ∀ r < 256, ((r - ((r / 2) &&& 0x55)) &&& 0x33) % 16 +
          (((r - ((r / 2) &&& 0x55)) / 4) &&& 0x33) % 16 ≤ 4 := by decide +kernel
    exact key r hr
  · exact (byte_x1 r hr).1

theorem swar4 (a b c d : Nat) (ha : a < 256) (hb : b < 256) (hc : c < 256) (hd : d < 256) :
    swar 0x55555555 0x33333333 0x0F0F0F0F (256 * (256 * (256 * d + c) + b) + a) =
      256 * (256 * (256 * cntN d 8 + cntN c 8) + cntN b 8) + cntN a 8 ∧
    NibOK 0x55555555 0x33333333 (256 * (256 * (256 * d + c) + b) + a) := by
  obtain ⟨h1, n1⟩ := swar_split 0x55 0x33 0x0F d c hc (nibOK_byte d hd)
  obtain ⟨h2, n2⟩ := swar_split 0x5555 0x3333 0x0F0F _ b hb n1
  obtain ⟨h3, n3⟩ := swar_split 0x555555 0x333333 0x0F0F0F _ a ha n2
  rw [byte_swar c hc, byte_swar d hd] at h1
  rw [byte_swar b hb, h1] at h2
  rw [byte_swar a ha, h2] at h3
  exact ⟨h3, n3⟩

theorem swar8 (a b c d e f g h : Nat) (ha : a < 256) (hb : b < 256) (hc : c < 256) (hd : d < 256)
    (he : e < 256) (hf : f < 256) (hg : g < 256) (hh : h < 256) :
    swar 0x5555555555555555 0x3333333333333333 0x0F0F0F0F0F0F0F0F
      (256 * (256 * (256 * (256 * (256 * (256 * (256 * h + g) + f) + e) + d) + c) + b) + a) =
      256 * (256 * (256 * (256 * (256 * (256 * (256 * cntN h 8 + cntN g 8) + cntN f 8) + cntN e 8) +
        cntN d 8) + cntN c 8) + cntN b 8) + cntN a 8 := by
  obtain ⟨h0, n0⟩ := swar4 e f g h he hf hg hh
  obtain ⟨h1, n1⟩ := swar_split 0x55555555 0x33333333 0x0F0F0F0F _ d hd n0
  obtain ⟨h2, n2⟩ := swar_split 0x5555555555 0x3333333333 0x0F0F0F0F0F _ c hc n1
  obtain ⟨h3, n3⟩ := swar_split 0x555555555555 0x333333333333 0x0F0F0F0F0F0F _ b hb n2
  obtain ⟨h4, _⟩ := swar_split 0x55555555555555 0x33333333333333 0x0F0F0F0F0F0F0F _ a ha n3
  rw [byte_swar d hd, h0] at h1
  rw [byte_swar c hc, h1] at h2
  rw [byte_swar b hb, h2] at h3
  rw [byte_swar a ha, h3] at h4
  exact h4

theorem popcount_eq_cntN {w : Nat} (x : BitVec w) : popcount x = cntN x.toNat w := rfl

theorem swar_toNat32 (x : BitVec 32) :
    ((((x - ((x >>> 1) &&& 0x55555555#32)) &&& 0x33333333#32) +
      (((x - ((x >>> 1) &&& 0x55555555#32)) >>> 2) &&& 0x33333333#32) +
      ((((x - ((x >>> 1) &&& 0x55555555#32)) &&& 0x33333333#32) +
      (((x - ((x >>> 1) &&& 0x55555555#32)) >>> 2) &&& 0x33333333#32)) >>> 4)) &&& 0xF0F0F0F#32).toNat =
      swar 0x55555555 0x33333333 0x0F0F0F0F x.toNat := by
  have hx := x.isLt
  have hle : ((x >>> 1) &&& 0x55555555#32).toNat ≤ x.toNat := by
    rw [BitVec.toNat_and, BitVec.toNat_ushiftRight, Nat.shiftRight_eq_div_pow]
    exact Nat.le_trans Nat.and_le_left (by omega)
  have e1 : (x - ((x >>> 1) &&& 0x55555555#32)).toNat = x.toNat - ((x.toNat / 2) &&& 0x55555555) := by
    rw [BitVec.toNat_sub_of_le (BitVec.le_def.mpr hle), BitVec.toNat_and, BitVec.toNat_ushiftRight,
      Nat.shiftRight_eq_div_pow]
    rfl
  set x1 := x - ((x >>> 1) &&& 0x55555555#32)
  have hx1 := x1.isLt
  have b1 : x1.toNat &&& 0x33333333 ≤ 0x33333333 := Nat.and_le_right
  have b2 : (x1.toNat / 4) &&& 0x33333333 ≤ 0x33333333 := Nat.and_le_right
  have e2 : ((x1 &&& 0x33333333#32) + ((x1 >>> 2) &&& 0x33333333#32)).toNat =
      (x1.toNat &&& 0x33333333) + ((x1.toNat / 4) &&& 0x33333333) := by
    rw [BitVec.toNat_add, BitVec.toNat_and, BitVec.toNat_and, BitVec.toNat_ushiftRight,
      Nat.shiftRight_eq_div_pow]
    show ((x1.toNat &&& 0x33333333) + ((x1.toNat / 4) &&& 0x33333333)) % 4294967296 = _
    omega
  set x2 := (x1 &&& 0x33333333#32) + ((x1 >>> 2) &&& 0x33333333#32)
  have e3 : (x2 + (x2 >>> 4)).toNat = x2.toNat + x2.toNat / 16 := by
    rw [BitVec.toNat_add, BitVec.toNat_ushiftRight, Nat.shiftRight_eq_div_pow]
    show (x2.toNat + x2.toNat / 16) % 4294967296 = _
    omega
  rw [BitVec.toNat_and, e3]
  simp only [swar]
  rw [← e1, ← e2]
  rfl

theorem swar_toNat64 (x : BitVec 64) :
    ((((x - ((x >>> 1) &&& 0x5555555555555555#64)) &&& 0x3333333333333333#64) +
      (((x - ((x >>> 1) &&& 0x5555555555555555#64)) >>> 2) &&& 0x3333333333333333#64) +
      ((((x - ((x >>> 1) &&& 0x5555555555555555#64)) &&& 0x3333333333333333#64) +
      (((x - ((x >>> 1) &&& 0x5555555555555555#64)) >>> 2) &&& 0x3333333333333333#64)) >>> 4)) &&&
        0x0F0F0F0F0F0F0F0F#64).toNat =
      swar 0x5555555555555555 0x3333333333333333 0x0F0F0F0F0F0F0F0F x.toNat := by
  have hx := x.isLt
  have hle : ((x >>> 1) &&& 0x5555555555555555#64).toNat ≤ x.toNat := by
    rw [BitVec.toNat_and, BitVec.toNat_ushiftRight, Nat.shiftRight_eq_div_pow]
    exact Nat.le_trans Nat.and_le_left (by omega)
  have e1 : (x - ((x >>> 1) &&& 0x5555555555555555#64)).toNat =
      x.toNat - ((x.toNat / 2) &&& 0x5555555555555555) := by
    rw [BitVec.toNat_sub_of_le (BitVec.le_def.mpr hle), BitVec.toNat_and, BitVec.toNat_ushiftRight,
      Nat.shiftRight_eq_div_pow]
    rfl
  set x1 := x - ((x >>> 1) &&& 0x5555555555555555#64)
  have hx1 := x1.isLt
  have b1 : x1.toNat &&& 0x3333333333333333 ≤ 0x3333333333333333 := Nat.and_le_right
  have b2 : (x1.toNat / 4) &&& 0x3333333333333333 ≤ 0x3333333333333333 := Nat.and_le_right
  have e2 : ((x1 &&& 0x3333333333333333#64) + ((x1 >>> 2) &&& 0x3333333333333333#64)).toNat =
      (x1.toNat &&& 0x3333333333333333) + ((x1.toNat / 4) &&& 0x3333333333333333) := by
    rw [BitVec.toNat_add, BitVec.toNat_and, BitVec.toNat_and, BitVec.toNat_ushiftRight,
      Nat.shiftRight_eq_div_pow]
    show ((x1.toNat &&& 0x3333333333333333) + ((x1.toNat / 4) &&& 0x3333333333333333)) %
      18446744073709551616 = _
    omega
  set x2 := (x1 &&& 0x3333333333333333#64) + ((x1 >>> 2) &&& 0x3333333333333333#64)
  have e3 : (x2 + (x2 >>> 4)).toNat = x2.toNat + x2.toNat / 16 := by
    rw [BitVec.toNat_add, BitVec.toNat_ushiftRight, Nat.shiftRight_eq_div_pow]
    show (x2.toNat + x2.toNat / 16) % 18446744073709551616 = _
    omega
  rw [BitVec.toNat_and, e3]
  simp only [swar]
  rw [← e1, ← e2]
  rfl

theorem top_byte (N Q S R m k : Nat) (hR : R < k) (hS : k * S + R < m) (h : N = m * Q + (k * S + R)) :
    N % m / k = S := by
  have hk : 0 < k := by omega
  rw [h, Nat.mul_add_mod, Nat.mod_eq_of_lt hS, Nat.mul_add_div hk, Nat.div_eq_of_lt hR, Nat.add_zero]

theorem mul_top32 (a b c d : Nat) (ha : a ≤ 8) (hb : b ≤ 8) (hc : c ≤ 8) (hd : d ≤ 8) :
    (256 * (256 * (256 * d + c) + b) + a) * 16843009 % 4294967296 / 16777216 = a + (b + (c + d)) := by
  apply top_byte _ ((b + c + d) + (c + d) * 256 + d * 65536) _ (a + (a + b) * 256 + (a + b + c) * 65536)
  · omega
  · omega
  · ring

theorem mul_top64 (a b c d e f g h : Nat) (ha : a ≤ 8) (hb : b ≤ 8) (hc : c ≤ 8) (hd : d ≤ 8)
    (he : e ≤ 8) (hf : f ≤ 8) (hg : g ≤ 8) (hh : h ≤ 8) :
    (256 * (256 * (256 * (256 * (256 * (256 * (256 * h + g) + f) + e) + d) + c) + b) + a) *
      72340172838076673 % 18446744073709551616 / 72057594037927936 =
      a + (b + (c + (d + (e + (f + (g + h)))))) := by
  apply top_byte _ ((b + c + d + e + f + g + h) + (c + d + e + f + g + h) * 2 ^ 8 +
      (d + e + f + g + h) * 2 ^ 16 + (e + f + g + h) * 2 ^ 24 + (f + g + h) * 2 ^ 32 +
      (g + h) * 2 ^ 40 + h * 2 ^ 48) _
    (a + (a + b) * 2 ^ 8 + (a + b + c) * 2 ^ 16 + (a + b + c + d) * 2 ^ 24 + (a + b + c + d + e) * 2 ^ 32 +
      (a + b + c + d + e + f) * 2 ^ 40 + (a + b + c + d + e + f + g) * 2 ^ 48)
  · omega
  · omega
  · ring

theorem split4 (n : Nat) (hx : n < 4294967296) : ∃ a b c d, a < 256 ∧ b < 256 ∧ c < 256 ∧ d < 256 ∧
      n = 256 * (256 * (256 * d + c) + b) + a :=
    ⟨n % 256, n / 256 % 256, n / 65536 % 256, n / 16777216,
      by omega, by omega, by omega, by omega, by omega⟩

/-! ## property theorems -/

/-- **C09, 32 bit.** `popcount_fallback` returns the number of positions at which the word has a one. -/
theorem C09_popcount32 (x : BitVec 32) :
    (popcountFallback32 x).toNat = (List.range 32).countP (fun i => x.getLsbD i) := by
  have hx := x.isLt
  obtain ⟨a, b, c, d, ha, hb, hc, hd, hn⟩ := split4 _ hx
  have hs := (swar4 a b c d ha hb hc hd).1
  rw [← hn, ← swar_toNat32] at hs
  have hcnt : (List.range 32).countP (fun i => x.getLsbD i) = cntN a 8 + (cntN b 8 + (cntN c 8 + cntN d 8)) := by
    have h0 : (List.range 32).countP (fun i => x.getLsbD i) = cntN x.toNat (8 + (8 + (8 + 8))) := rfl
    rw [h0, hn, cntN_split _ _ _ ha, cntN_split _ _ _ hb, cntN_split _ _ _ hc]
  rw [hcnt]
  simp only [popcountFallback32]
  rw [BitVec.toNat_ushiftRight, BitVec.toNat_mul, hs, Nat.shiftRight_eq_div_pow]
  exact mul_top32 _ _ _ _ (byte_cnt a ha) (byte_cnt b hb) (byte_cnt c hc) (byte_cnt d hd)

/-- **C09, 64 bit.** -/
theorem C09_popcount64 (x : BitVec 64) :
    (popcountFallback64 x).toNat = (List.range 64).countP (fun i => x.getLsbD i) := by
  have hx := x.isLt
  obtain ⟨a, b, c, d, ha, hb, hc, hd, hn0⟩ := split4 (x.toNat % 4294967296) (Nat.mod_lt _ (by omega))
  obtain ⟨e, f, g, h, he, hf, hg, hh, hn1⟩ := split4 (x.toNat / 4294967296) (by omega)
  have hn : x.toNat = 256 * (256 * (256 * (256 * (256 * (256 * (256 * h + g) + f) + e) + d) + c) + b) + a := by
    rw [← Nat.div_add_mod x.toNat 4294967296, hn0, hn1]; ring
  have hs := swar8 a b c d e f g h ha hb hc hd he hf hg hh
  rw [← hn, ← swar_toNat64] at hs
  have hcnt : (List.range 64).countP (fun i => x.getLsbD i) = cntN a 8 + (cntN b 8 + (cntN c 8 + (cntN d 8 +
      (cntN e 8 + (cntN f 8 + (cntN g 8 + cntN h 8)))))) := by
    have h0 : (List.range 64).countP (fun i => x.getLsbD i) =
        cntN x.toNat (8 + (8 + (8 + (8 + (8 + (8 + (8 + 8))))))) := rfl
    rw [h0, hn, cntN_split _ _ _ ha, cntN_split _ _ _ hb, cntN_split _ _ _ hc, cntN_split _ _ _ hd,
      cntN_split _ _ _ he, cntN_split _ _ _ hf, cntN_split _ _ _ hg]
  rw [hcnt]
  simp only [popcountFallback64]
  rw [BitVec.toNat_ushiftRight, BitVec.toNat_mul, hs, Nat.shiftRight_eq_div_pow]
  exact mul_top64 _ _ _ _ _ _ _ _ (byte_cnt a ha) (byte_cnt b hb) (byte_cnt c hc) (byte_cnt d hd)
    (byte_cnt e he) (byte_cnt f hf) (byte_cnt g hg) (byte_cnt h hh)

/-- **C09, set_bits_range.** Iterating a bitmap yields exactly the masks `1 << i` of its one bits,
each once, with `i` increasing. -/
theorem C09_set_bits {w : Nat} (bm : BitVec w) :
    ∃ is : List Nat, setBits bm = is.map (fun i => 1#w <<< i) ∧ is.Pairwise (· < ·) ∧
      ∀ i, i ∈ is ↔ bm.getLsbD i = true := by
  refine ⟨(List.range w).filter (fun i => bm.getLsbD i), setBits_eq bm, ?_, ?_⟩
  · exact List.pairwise_lt_range.sublist List.filter_sublist
  · intro i
    rw [List.mem_filter, List.mem_range]
    exact ⟨fun h => h.2, fun h => ⟨lt_of_getLsbD h, h⟩⟩

example : (popcountFallback32 0xDEADBEEF#32).toNat = 24 := by decide +kernel
example : (popcountFallback64 0xFFFFFFFFFFFFFFFF#64).toNat = 64 := by decide +kernel
example : (setBits 0b10110#8) = [0b10#8, 0b100#8, 0b10000#8] := by decide +kernel

end Champ
