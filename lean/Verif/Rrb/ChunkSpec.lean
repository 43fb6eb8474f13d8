import Verif.Rrb.SliceSpec

/-!
# Specifications of the chunk traversals
-/

namespace Rrb

variable {T : Type} {c : Cfg}

/-- call `fn` on each chunk in order, stopping at the first false -/
def runP {σ : Type} (fn : List T → σ → Bool × σ) : List (List T) → σ → Bool × σ
  | [], s => (true, s)
  | x :: xs, s => if (fn x s).1 then runP fn xs (fn x s).2 else (false, (fn x s).2)

theorem runP_append {σ : Type} (fn : List T → σ → Bool × σ) (a b : List (List T)) (s : σ) :
    runP fn (a ++ b) s = if (runP fn a s).1 then runP fn b (runP fn a s).2 else (false, (runP fn a s).2) := by
  induction a generalizing s with
  | nil => simp [runP]
  | cons x xs ih =>
    simp only [List.cons_append, runP]
    split
    · exact ih _
    · simp

/-- visiting with `v` means calling `fn` on consecutive non-empty chunks of `l` -/
def Chunks (l : List T) (v : ∀ {σ : Type}, (List T → σ → Bool × σ) → σ → Option (Bool × σ)) : Prop :=
  ∃ chs : List (List T), chs.flatten = l ∧ (∀ ch ∈ chs, ch ≠ []) ∧
    ∀ {σ : Type} (fn : List T → σ → Bool × σ) (s : σ), v fn s = some (runP fn chs s)

theorem Chunks.and {l m : List T} {v w : ∀ {σ : Type}, (List T → σ → Bool × σ) → σ → Option (Bool × σ)}
    (hv : Chunks l v) (hw : Chunks m w) : Chunks (l ++ m) (fun fn s => andP (v fn) (w fn) s) := by
  obtain ⟨a, rfl, ha, h1⟩ := hv
  obtain ⟨b, rfl, hb, h2⟩ := hw
  refine ⟨a ++ b, by simp, ?_, ?_⟩
  · intro ch hch
    simp only [List.mem_append] at hch
    rcases hch with h | h
    · exact ha _ h
    · exact hb _ h
  · intro σ fn s
    simp only [andP, h1, h2, Option.bind_eq_bind, Option.bind_some, runP_append]
    split <;> rfl

theorem Chunks.leaf {l : List T} (h : l ≠ []) : Chunks l (fun fn s => some (fn l s)) := by
  refine ⟨[l], by simp, by simpa using h, ?_⟩
  intro σ fn s
  simp only [runP, Option.some.injEq]
  rcases hf : fn l s with ⟨b, s'⟩
  cases b <;> rfl

theorem Chunks.each {L : Nat} {v : ∀ {σ : Type}, (List T → σ → Bool × σ) → Pos T → σ → Option (Bool × σ)}
    {ps : List (Pos T)} {cs : List (Node T)} (h : KidsOK c L ps cs)
    (hv : ∀ p l, PosOK c L p l → Chunks l (fun fn s => v fn p s)) :
    Chunks (cs.flatMap (els L)) (fun fn s => eachP (v fn) ps s) := by
  unfold KidsOK at h
  induction h with
  | nil => exact ⟨[], rfl, by simp, fun _ _ => rfl⟩
  | @cons p x ps xs hp _ ih =>
    obtain ⟨chs, h1, h2, h3⟩ := (hv p _ hp.1).and ih
    refine ⟨chs, by simpa using h1, h2, ?_⟩
    intro σ fn s
    rw [← h3 fn s]
    rfl

theorem chunks_spec (hB : 0 < c.B) : ∀ (L : Nat) {p : Pos T} {l : List T}, PosOK c L p l →
    Chunks l (fun fn s => chunks c fn L p s) := by
  intro L
  induction L with
  | zero =>
    intro p l h
    obtain ⟨hn, hc, h1, h2, -⟩ := h.leaf
    have := Chunks.leaf (l := l) (by rintro rfl; simp at h1)
    simpa [chunks, hn, hc, Node.leaf?, slice_all] using this
  | succ L ih =>
    intro p l h
    obtain ⟨r, cs, hn, hne, hl, hw, rfl, hcnt, hsh⟩ := h.inner
    obtain ⟨ps, hps, hk⟩ := h.each hB hn
    have := Chunks.each (v := fun fn p s => chunks c fn L p s) hk (fun p l h => ih h)
    simpa [chunks, hps] using this

theorem chunksLeft_spec (hB : 0 < c.B) : ∀ (L : Nat) {p : Pos T} {l : List T}, PosOK c L p l →
    ∀ {last i : Nat}, IdxOK c L p last i → i < l.length →
    Chunks (l.take (i + 1)) (fun fn s => chunksLeft c fn L p last s) := by
  intro L
  induction L with
  | zero =>
    intro p l h last i hidx hi
    obtain ⟨hn, hc, h1, h2, hix⟩ := h.leaf
    have := Chunks.leaf (l := l.take (i + 1)) (by
      intro h0; have := congrArg List.length h0; simp only [List.length_take, List.length_nil] at this; omega)
    simpa [chunksLeft, hn, hix last i hidx hi, Node.leaf?, slice_zero (show i + 1 ≤ l.length by omega)] using this
  | succ L ih =>
    intro p l h last i hidx hi
    obtain ⟨r, cs, hn, hne, hl, hw, rfl, hcnt, hsh⟩ := h.inner
    obtain ⟨k, x, hx, hlo, hhi⟩ := exists_kid L cs i hi
    obtain ⟨hix, q, idx', hto, hqok, hqn, hqi⟩ := h.towards hB hn hidx hx hlo hhi
    obtain ⟨ps, hps, hk⟩ := h.eachLeft hB hn k (List.getElem?_eq_some_iff.1 hx).1
    have h1 := Chunks.each (v := fun fn p s => chunks c fn L p s) hk (fun p l h => chunks_spec hB L h)
    have h2 := ih hqok hqi (by omega)
    have := h1.and h2
    rw [take_kid hx hlo hhi]
    simpa [chunksLeft, hix, hps, hto] using this

theorem chunksRight_spec (hB : 0 < c.B) : ∀ (L : Nat) {p : Pos T} {l : List T}, PosOK c L p l →
    ∀ {first i : Nat}, IdxOK c L p first i → i < l.length →
    Chunks (l.drop i) (fun fn s => chunksRight c fn L p first s) := by
  intro L
  induction L with
  | zero =>
    intro p l h first i hidx hi
    obtain ⟨hn, hc, h1, h2, hix⟩ := h.leaf
    have := Chunks.leaf (l := l.drop i) (by
      intro h0; have := congrArg List.length h0; simp at this; omega)
    have hs : slice l i l.length = some (l.drop i) := by
      rw [slice_ok (by omega) (le_refl _), List.take_of_length_le (by simp)]
    simpa [chunksRight, hn, hix first i hidx hi, Node.leaf?, hc, hs] using this
  | succ L ih =>
    intro p l h first i hidx hi
    obtain ⟨r, cs, hn, hne, hl, hw, rfl, hcnt, hsh⟩ := h.inner
    obtain ⟨k, x, hx, hlo, hhi⟩ := exists_kid L cs i hi
    obtain ⟨hix, q, idx', hto, hqok, hqn, hqi⟩ := h.towards hB hn hidx hx hlo hhi
    obtain ⟨ps, hps, hk⟩ := h.eachRight hB hn (k + 1) (by omega) (List.getElem?_eq_some_iff.1 hx).1
    have h1 := Chunks.each (v := fun fn p s => chunks c fn L p s) hk (fun p l h => chunks_spec hB L h)
    have h2 := ih hqok hqi (by omega)
    have := h2.and h1
    rw [drop_kid hx hlo hhi]
    simpa [chunksRight, hix, hps, hto] using this

/-- child index moves monotonically with the element index -/
theorem kid_le {L : Nat} {cs : List (Node T)} {i j k m : Nat} {x y : Node T} (hx : cs[k]? = some x) 
    (hlo : before L cs k ≤ i) (hy : cs[m]? = some y)
    (hhi' : j < before L cs m + (els L y).length) (hij : i ≤ j) : k ≤ m := by
  by_contra hcon
  have h1 := before_mono L cs (i := m + 1) (j := k) (by omega)
  have h2 := before_succ L cs m y hy
  omega

/-- the amount `towards_oh` subtracts from the index -/
theorem towardsOh_sub {p q : Pos T} {idx k i : Nat} (h : p.towardsOh c idx k = some (q, i)) :
    ∃ d, i = idx - d ∧ (∀ idx2, p.towardsOh c idx2 k = some (q, idx2 - d)) ∧
      (NotRel p → d = 0) ∧ ∀ n s sz, p = .rel n s sz → Pos.szBefore sz k = some d := by
  match p with
  | .reg n s size =>
    simp only [Pos.towardsOh, Option.map_eq_some_iff, Prod.mk.injEq] at h
    obtain ⟨q', h1, rfl, rfl⟩ := h
    exact ⟨0, rfl, fun idx2 => by simp [Pos.towardsOh, h1], fun _ => rfl, by simp⟩
  | .regSub n s size =>
    simp only [Pos.towardsOh, Option.map_eq_some_iff, Prod.mk.injEq] at h
    obtain ⟨q', h1, rfl, rfl⟩ := h
    exact ⟨0, rfl, fun idx2 => by simp [Pos.towardsOh, h1], fun _ => rfl, by simp⟩
  | .full n s =>
    simp only [Pos.towardsOh, Option.bind_eq_bind, Option.bind_eq_some_iff, Option.some.injEq, Prod.mk.injEq] at h
    obtain ⟨cs, h1, x, h2, rfl, rfl⟩ := h
    exact ⟨0, rfl, fun idx2 => by simp [Pos.towardsOh, h1, h2], fun _ => rfl, by simp⟩
  | .rel n s sz =>
    simp only [Pos.towardsOh, Option.bind_eq_bind, Option.bind_eq_some_iff, Option.some.injEq, Prod.mk.injEq] at h
    obtain ⟨cs, h1, b, h2, q', h3, rfl, rfl⟩ := h
    exact ⟨b, rfl, fun idx2 => by simp [Pos.towardsOh, h1, h2, h3], fun h => absurd rfl (h _ _ _), by
      rintro n s sz ⟨⟩; exact h2⟩
  | .leaf _ _ => simp [Pos.towardsOh] at h
  | .leafSub _ _ => simp [Pos.towardsOh] at h
  | .fullLeaf _ => simp [Pos.towardsOh] at h

theorem IdxOK.sub_lt {L : Nat} {p : Pos T} {l : List T} {first i d : Nat} {r cs} (h : PosOK c (L + 1) p l)
    (hn : p.node = .inner r cs) {k : Nat} (hk : k < cs.length)
    (hi : IdxOK c (L + 1) p first i) (hd : NotRel p → d = 0) 
    (hd' : ∀ n s sz, p = .rel n s sz → Pos.szBefore sz k = some d) (hlo : before L cs k ≤ i) : d ≤ first := by
  by_cases hrel : NotRel p
  · rw [hd hrel]; omega
  · unfold NotRel at hrel; push_neg at hrel
    obtain ⟨n, s, sz, rfl⟩ := hrel
    have e1 := hd' n s sz rfl
    obtain ⟨rfl, hr, rfl, cs', rfl⟩ := h
    simp only [WF] at hr
    obtain ⟨w1, w2, w3, rfl⟩ := hr
    simp only [Pos.node, Node.inner.injEq] at hn
    obtain ⟨-, rfl⟩ := hn
    rw [szBefore_psums _ _ (by simpa using le_of_lt hk), ← before_eq_sum] at e1
    simp only [Option.some.injEq] at e1
    simp only [IdxOK] at hi
    omega

theorem chunksI_spec (hB : 0 < c.B) : ∀ (L : Nat) {p : Pos T} {l : List T}, PosOK c L p l →
    ∀ {first last i j : Nat}, IdxOK c L p first i → IdxOK c L p (last - 1) (j - 1) → i < j → j ≤ l.length →
    first < last →
    Chunks ((l.take j).drop i) (fun fn s => chunksI c fn L p first last s) := by
  intro L
  induction L with
  | zero =>
    intro p l h first last i j hi hj hij hjl hfl
    obtain ⟨hn, hc, h1, h2, hix⟩ := h.leaf
    have := Chunks.leaf (l := (l.take j).drop i) (by
      intro h0; have := congrArg List.length h0; simp at this; omega)
    have hs : slice l i j = some ((l.take j).drop i) := by
      rw [slice_ok (by omega) (by omega), List.drop_take]
    have e1 := hix first i hi (by omega)
    have e2 := hix (last - 1) (j - 1) hj (by omega)
    simpa [chunksI, hn, e1, e2, Node.leaf?, hc, hfl, (by omega : j - 1 + 1 = j), hs] using this
  | succ L ih =>
    intro p l h first last i j hi hj hij hjl hfl
    obtain ⟨r, cs, hn, hne, hl, hw, rfl, hcnt, hsh⟩ := h.inner
    obtain ⟨k, x, hx, hlo, hhi⟩ := exists_kid L cs i (by omega)
    obtain ⟨m, y, hy, hlo', hhi'⟩ := exists_kid L cs (j - 1) (by omega)
    obtain ⟨hix, q, idx, hto, hqok, hqn, hqi⟩ := h.towards hB hn hi hx hlo hhi
    obtain ⟨hiy, q', idx', hto', hqok', hqn', hqi'⟩ := h.towards hB hn hj hy hlo' hhi'
    have hkm : k ≤ m := kid_le hx hlo hy hhi' (by omega)
    have hk : k < cs.length := (List.getElem?_eq_some_iff.1 hx).1
    have hm : m < cs.length := (List.getElem?_eq_some_iff.1 hy).1
    have htk := take_kid hy hlo' hhi'
    rw [(by omega : j - 1 + 1 = j)] at htk
    by_cases hkm' : k = m
    · subst hkm'
      have : y = x := by rw [hx] at hy; simpa using hy.symm
      subst this
      obtain ⟨d, rfl, hd, hd1, hd2⟩ := towardsOh_sub hto
      have hle := IdxOK.sub_lt h hn hk hi hd1 hd2 hlo
      have heq := hd (last - 1)
      rw [hto'] at heq
      simp only [Option.some.injEq, Prod.mk.injEq] at heq
      obtain ⟨rfl, rfl⟩ := heq
      have hch := ih hqok (last := last - d) (j := j - before L cs k) hqi
        (by rw [(by omega : last - d - 1 = last - 1 - d), (by omega : j - before L cs k - 1 = j - 1 - before L cs k)]
            exact hqi') (by omega) (by omega) (by omega)
      have hlist : ((cs.flatMap (els L)).take j).drop i =
          ((els L y).take (j - before L cs k)).drop (i - before L cs k) := by
        rw [htk, List.drop_append, List.drop_of_length_le (by simp only [before] at hlo; omega)]
        simp only [before, List.nil_append] at *
        congr 2; omega
      rw [hlist]
      have hb : before L cs k = before L cs k := rfl
      obtain ⟨chs, c1, c2, c3⟩ := hch
      refine ⟨chs, c1, c2, ?_⟩
      intro σ fn s
      rw [← c3 fn s]
      simp only [chunksI, hix, hiy, hto, Option.bind_eq_bind, Option.bind_some, if_pos hfl, if_true]
      by_cases hrel : NotRel p
      · have := hd1 hrel
        subst this
        cases p with
        | rel n s sz => exact absurd rfl (hrel _ _ _)
        | _ => rfl
      · unfold NotRel at hrel; push_neg at hrel
        obtain ⟨n, s, sz, rfl⟩ := hrel
        simp only [hd2 _ _ _ rfl, Option.bind_some]
    · have hkm2 : k + 1 ≤ m := by omega
      obtain ⟨ps, hps, hks⟩ := h.eachI hB hn (k + 1) m hkm2 (by omega)
      have h1 := chunksRight_spec hB L hqok hqi (by omega)
      have h2 := Chunks.each (v := fun fn p s => chunks c fn L p s) hks (fun p l h => chunks_spec hB L h)
      have h3 := chunksLeft_spec hB L hqok' hqi' (by omega)
      have := h1.and (h2.and h3)
      have hlist : ((cs.flatMap (els L)).take j).drop i =
          (els L x).drop (i - before L cs k) ++ (((cs.drop (k + 1)).take (m - (k + 1))).flatMap (els L) ++
            (els L y).take (j - 1 - before L cs m + 1)) := by
        rw [htk]
        have e1 : (cs.take m)[k]? = some x := by rw [List.getElem?_take_of_lt (by omega)]; exact hx
        have e2 : before L (cs.take m) k = before L cs k := by
          simp only [before]; rw [List.take_take, min_eq_left (by omega)]
        have e3 := drop_kid (L := L) (i := i) e1 (by omega) (by omega)
        rw [List.drop_append_of_le_length, e3, e2, List.append_assoc, List.drop_take]
        have := before_succ L (cs.take m) k x e1
        have h3 := before_mono L (cs.take m) (i := k + 1) (j := (cs.take m).length) (by simp; omega)
        rw [before_all _ _ _ (le_refl _)] at h3
        omega
      rw [hlist]
      obtain ⟨chs, c1, c2, c3⟩ := this
      refine ⟨chs, c1, c2, ?_⟩
      intro σ fn s
      rw [← c3 fn s]
      simp only [chunksI, hix, hiy, hto, hto', hps, Option.bind_eq_bind, Option.bind_some, if_pos hfl, if_neg hkm']

end Rrb
