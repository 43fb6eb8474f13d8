import Verif.FlexHeap.ConcatTail
import Verif.FlexHeap.ConcatMut

/-!
# Concatenation: a new vector holds the elements of both

`concat` (`rrbtree.hpp` 703-779), and `concat_mut_r` (908-1020) when references are counted.
-/

namespace FlexHeap
open Mm Rrb VecHeap

section
variable {T : Type} {c : Cfg} {E : Env Dat T} {u : Toks E.gc} {s : St Dat T} {O : List Nat} {L : List (Ref (Val T))} {v w : Vc} {t t2 : Tree T} {l l2 pre tl upre utl : List T} {own : Option Nat} {e k : Nat}

theorem FParts.froot (hp : FParts c v t pre tl) : Flex.Root c t.root v.shift pre := by
  rcases hp.root with h | ⟨d, _, h1, _, h2⟩
  · exact .inl h
  · exact .inr ⟨d, h1, h2⟩

theorem FParts.hroot (hp : FParts c v t pre tl) (hne : pre ≠ []) (h : Inv (sys c E u) s.mem O L) (hL : ∀ r ∈ refs v t 0, r ∈ L) :
    ∃ d, v.shift = c.BL + c.B * d ∧ HRoot c E u s.mem L d v.root t.root pre := by
  rcases hp.root with ⟨h1, _⟩ | ⟨d, _, h1, _, h2⟩
  · exact absurd h1 hne
  · exact ⟨d, h1, h2, (refs_ok h hL).1, .inr ⟨_, hL ⟨v.root, .node t.root, 0, false⟩ (by simp [refs]), rfl, rfl⟩⟩

/-- shift and root of the concatenation of two trees -/
def Trees (c : Cfg) (E : Env Dat T) (u : Toks E.gc) (O : List Nat) (L : List (Ref (Val T))) (m0 : Mem Dat T) (b : Nat) (es : List T) (s' : St Dat T) (x : Nat × Nat) : Prop :=
  ∃ M root, x.1 = c.BL + c.B * M ∧ x.1 ≤ b ∧ RootOK c M root es ∧ Inv (sys c E u) s'.mem O (⟨x.2, .node root, 0, false⟩ :: L) ∧ Kept (sys c E u) O L m0 s'.mem

theorem trees_out (hB : 2 ≤ c.B) (hE : E.Fresh) (hp : FParts c v t pre tl) (hq : FParts c w t2 upre utl) (htl : tl ≠ []) (hup : upre ≠ []) (h : Inv (sys c E u) s.mem O L) (hvL : ∀ r ∈ refs v t 0, r ∈ L) (hwL : ∀ r ∈ refs w t2 0, r ∈ L)
    (h32 : w.size ≤ 2 ^ 32) (hs32 : w.shift < 32) (hcf : E.gc = true → NoCopyFault s) :
    Out ((if pre.length = 0 then concatTreesTail c E v.tail tl.length w.root w.shift upre.length else concatTrees c E v.root v.shift pre.length v.tail tl.length w.root w.shift upre.length) s)
      (Trees c E u O L s.mem (max v.shift w.shift + c.B) (pre ++ tl ++ upre)) (fun s' => Gone c E u O L s.mem s'.mem) := by
  have ht1 := List.length_pos_iff.2 htl
  have hq' := hq.size
  obtain ⟨har, hat⟩ := refs_ok h hvL
  rw [hp.tail] at hat
  have hts : Sh (sys c E u) s.mem L v.tail := .inr ⟨_, hvL ⟨v.tail, .node t.tail, 0, false⟩ (by simp [refs]), rfl, rfl⟩
  obtain ⟨Lr, hws, hr⟩ := hq.hroot hup h hwL
  rw [hws] at hs32 ⊢
  by_cases ho : pre.length = 0
  · rw [if_pos ho]
    have : pre = [] := List.length_eq_zero_iff.1 ho
    subst this
    refine out_mono (concatTreesTail_out hB hE h hr ht1 hp.le hat hts (by omega) hs32 hcf) ?_ (fun _ h => h)
    rintro s1 x ⟨M, root, h1, h2, h3, h4, h5, h6, h7, _, h8⟩
    refine ⟨M, root, h1, ?_, ⟨h5, h6, h8 _ rfl, h7⟩, h3, h4⟩
    have := Nat.mul_le_mul_left c.B h2
    rw [Nat.mul_add] at this
    omega
  · rw [if_neg ho]
    obtain ⟨Ll, hvs, hl⟩ := hp.hroot (by rintro rfl; simp at ho) h hvL
    rw [hvs]
    refine out_mono (concatTrees_out hB hE h hl hr ht1 hp.le hat hts (by omega) hs32 hcf) ?_ (fun _ h => h)
    rintro s1 x ⟨M, root, h1, h2, h3, h4, h5, h6, h7, _, h8⟩
    refine ⟨M, root, h1, ?_, ⟨h5, h6, h8 _ rfl, h7⟩, h3, h4⟩
    have := Nat.mul_le_mul_left c.B h2
    rcases Nat.le_total Ll Lr with h | h
    · have h' := Nat.mul_le_mul_left c.B h
      rw [Nat.max_eq_right h, Nat.mul_add] at this
      omega
    · have h' := Nat.mul_le_mul_left c.B h
      rw [Nat.max_eq_left h, Nat.mul_add] at this
      omega

/-- the result gets the tail of the second vector -/
theorem treesTail_out (hq : FParts c w t2 upre utl) (hut : utl ≠ []) (hwL : ∀ r ∈ refs w t2 0, r ∈ L) {x : Nat × Nat} {b : Nat} {m0 : Mem Dat T} {es : List T} (h : Trees c E u O L m0 b es s x) :
    Out (inc E w.tail s) (fun s' _ => Joint c E u O L m0 b (es ++ utl) s' (x.1, x.2, w.tail)) (fun _ => False) := by
  obtain ⟨M, root, h1, h2, h3, h4, h5⟩ := h
  have hm : (⟨w.tail, .node (.leaf utl), 0, false⟩ : Ref (Val T)) ∈ ⟨x.2, .node root, 0, false⟩ :: L := by
    rw [← hq.tail]
    exact List.mem_cons_of_mem _ (hwL _ (by simp [refs]))
  refine out_mono (inc_mem h4 hm (unowned h4 hm rfl) 0) ?_ (fun _ h => h)
  rintro s1 _ ⟨hi1, hk1⟩
  exact ⟨⟨es.length + utl.length, x.1, root, .leaf utl⟩, ⟨es, utl, rfl, by simp, rfl, hq.le, fun h => absurd h hut, .inr ⟨M, h1, h3⟩⟩, rfl, h2, hi1.permL (List.Perm.swap _ _ _), h5.trans (Kept.tail hk1)⟩

/-- `concat`: a new vector, or nothing has changed.  Both operands may be the same object. -/
theorem fconcat_out (hB : 2 ≤ c.B) (hE : E.Fresh) (hi : Is v t) (hv : Flex.Inv c t l) (hj : Is w t2) (hw : Flex.Inv c t2 l2) (h : Inv (sys c E u) s.mem O L) (hvL : ∀ r ∈ refs v t 0, r ∈ L) (hwL : ∀ r ∈ refs w t2 0, r ∈ L)
    (h32 : w.size ≤ 2 ^ 32) (hs32 : w.shift < 32) (hcf : E.gc = true → NoCopyFault s) :
    Out (Fc.concat c E v w s) (fun s' x => ∃ t', Flex.Inv c t' (l ++ l2) ∧ t'.shift ≤ max v.shift w.shift + c.B ∧ Made c E u O L s.mem t' 0 s' x) (fun s' => Gone c E u O L s.mem s'.mem) := by
  have hB0 : 0 < c.B := by omega
  obtain ⟨pre, tl, rfl, hp⟩ := fparts hB0 hi hv
  obtain ⟨upre, utl, rfl, hq⟩ := fparts hB0 hj hw
  have hsz := hp.size
  have hsw := hq.size
  unfold Fc.concat
  by_cases h0 : v.size = 0
  · rw [if_pos h0]
    have : pre ++ tl = [] := List.length_eq_zero_iff.1 (by rw [List.length_append]; omega)
    rw [this]
    refine out_bind (out_mono (share_out h hwL 0) (fun _ _ h => h) (fun _ h => h.elim)) ?_
    rintro s1 _ ⟨h1, h2⟩
    exact ⟨t2, by simpa using hw, by rw [← hj.shift]; omega, hj, h1, h2⟩
  rw [if_neg h0]
  by_cases hw0 : w.size = 0
  · rw [if_pos hw0]
    have : upre ++ utl = [] := List.length_eq_zero_iff.1 (by rw [List.length_append]; omega)
    rw [this]
    refine out_bind (out_mono (share_out h hvL 0) (fun _ _ h => h) (fun _ h => h.elim)) ?_
    rintro s1 _ ⟨h1, h2⟩
    exact ⟨t, by simpa using hv, by rw [← hi.shift]; omega, hi, h1, h2⟩
  rw [if_neg hw0, bind_ok (off_eq hq hj (refs_ok h hwL).1.den), bind_ok (off_eq hp hi (refs_ok h hvL).1.den)]
  have htne : tl ≠ [] := by rintro rfl; rw [hp.nil rfl] at hsz; simp at hsz; omega
  have hutne : utl ≠ [] := by rintro rfl; rw [hq.nil rfl] at hsw; simp at hsw; omega
  have fin : ∀ {s1 : St Dat T} {x : Nat × Nat × Nat}, Joint c E u O L s.mem (max v.shift w.shift + c.B) (pre ++ tl ++ (upre ++ utl)) s1 x →
      ∃ t', Flex.Inv c t' (pre ++ tl ++ (upre ++ utl)) ∧ t'.shift ≤ max v.shift w.shift + c.B ∧ Made c E u O L s.mem t' 0 s1 ⟨v.size + w.size, x.1, x.2.1, x.2.2⟩ := by
    rintro s1 x ⟨t', a1, a2, a3, a4, a5⟩
    exact ⟨t', a1, by omega, ⟨by rw [hsz, hsw, a1.size]; simp only [List.length_append], a2.symm⟩, a4, a5⟩
  by_cases hr0 : upre.length = 0
  · rw [if_pos hr0]
    have : upre = [] := List.length_eq_zero_iff.1 hr0
    subst this
    have hsw' : w.size = utl.length := by simpa using hsw
    refine out_bind (concatTail_out (own := none) (share := true) hB0 hE (fun _ => rfl) hp hp.froot htne hq.le hutne hsw' h hvL (by rw [← hq.tail]; exact hwL _ (by simp [refs])) (.inl rfl)) ?_
    rintro s1 x ⟨t', a1, a2, a3, a4⟩
    exact fin ⟨t', a1, a2, by omega, a4⟩
  · rw [if_neg hr0, hp.rest]
    refine out_bind (trees_out hB hE hp hq htne (by rintro rfl; simp at hr0) h hvL hwL h32 hs32 hcf) ?_
    intro s1 x hx
    refine out_bind (out_mono (treesTail_out hq hutne hwL hx) (fun _ _ h => h) (fun _ h => h.elim)) ?_
    rintro s2 _ hj2
    refine fin (x := (x.1, x.2, w.tail)) ?_
    rw [← List.append_assoc]
    exact hj2

theorem retokAll {m : Mem Dat T} (hg : E.gc = false) (k' : Nat) (h : Inv (sys c E u) m O (refs v t k ++ L)) : Inv (sys c E u) m O (refs v t k' ++ L) := by
  have h1 := VecHeap.retok h (t' := k') (fun h => by rw [hg] at h; cases h) false (fun h => by cases h)
  have h2 := VecHeap.retok (h1.permL (List.Perm.swap _ _ _)) (t' := k') (fun h => by rw [hg] at h; cases h) false (fun h => by cases h)
  exact h2.permL (List.Perm.swap _ _ _)

/-- which tokens references come with does not matter -/
theorem kept_ptr {m m' : Mem Dat T} {L' : List (Ref (Val T))} (hL : ∀ r ∈ L', ∃ r' ∈ L, r'.ptr = r.ptr) (h : Kept (sys c E u) O L m m') : Kept (sys c E u) O L' m m' :=
  ⟨fun q ⟨r, hr, hq⟩ => by
    obtain ⟨r', hr', he⟩ := hL r hr
    exact h.1 q ⟨r', hr', by rw [he]; exact hq⟩, h.2⟩

theorem ptr_refs (k k' : Nat) {L1 L2 : List (Ref (Val T))} (h : ∀ r ∈ L1, ∃ r' ∈ L2, r'.ptr = r.ptr) : ∀ r ∈ refs v t k ++ L1, ∃ r' ∈ refs v t k' ++ L2, r'.ptr = r.ptr := by
  intro r hr
  rcases List.mem_append.mp hr with hr | hr
  · simp only [refs, List.mem_cons, List.not_mem_nil, or_false] at hr
    rcases hr with rfl | rfl
    · exact ⟨⟨v.root, .node t.root, k', false⟩, by simp [refs], rfl⟩
    · exact ⟨⟨v.tail, .node t.tail, k', false⟩, by simp [refs], rfl⟩
  · obtain ⟨r', h1, h2⟩ := h r hr
    exact ⟨r', List.mem_append_right _ h1, h2⟩

/-- two vectors whose tokens do not matter -/
theorem retok2 {m : Mem Dat T} (hg : E.gc = false) {k1 k2 : Nat} (k1' k2' : Nat) (h : Inv (sys c E u) m O (refs w t2 k1 ++ (refs v t k2 ++ L))) : Inv (sys c E u) m O (refs w t2 k1' ++ (refs v t k2' ++ L)) := by
  have h1 := retokAll hg k1' h
  have hp : ∀ k, (refs w t2 k1' ++ (refs v t k ++ L)).Perm (refs v t k ++ (refs w t2 k1' ++ L)) := fun k => by
    rw [← List.append_assoc, ← List.append_assoc]
    exact List.perm_append_comm.append_right _
  exact (retokAll hg k2' (h1.permL (hp _))).permL (hp _).symm

theorem kept_retok2 {m m' : Mem Dat T} {k1 k2 : Nat} (k1' k2' : Nat) (h : Kept (sys c E u) O (refs w t2 k1 ++ (refs v t k2 ++ L)) m m') : Kept (sys c E u) O (refs w t2 k1' ++ (refs v t k2' ++ L)) m m' :=
  kept_ptr (ptr_refs _ _ (ptr_refs _ _ fun r hr => ⟨r, hr, rfl⟩)) h

/-- `concat_mut_r` when references are counted: the first operand is shared as often as the result needs it, the second is replaced.
Without `l.tail->inc()` this fails if the tail of the first operand is full (F2). -/
theorem fconcatMutR_out (hB : 2 ≤ c.B) (hE : E.Fresh) (hg : E.gc = false) {share : Bool} {k' : Nat} (hi : Is v t) (hv : Flex.Inv c t l) (hj : Is w t2) (hw : Flex.Inv c t2 l2) (h : Inv (sys c E u) s.mem O (refs w t2 k ++ (refs v t k' ++ L)))
    (h32 : w.size ≤ 2 ^ 32) (hs32 : w.shift < 32) (hsh : share = true ∨ ∀ o, Flex.tailOffset c t = some o → v.size - o ≠ 2 ^ c.BL) :
    Out (Fc.concatMutR c E share e v w s) (fun s' x => ∃ t', Flex.Inv c t' (l ++ l2) ∧ t'.shift ≤ max v.shift w.shift + c.B ∧ Is x t' ∧ Inv (sys c E u) s'.mem O (refs x t' k ++ (refs v t k' ++ L)) ∧ Kept (sys c E u) O (refs v t k' ++ L) s.mem s'.mem)
      (fun s' => Gone c E u O (refs w t2 k ++ (refs v t k' ++ L)) s.mem s'.mem) := by
  have hB0 : 0 < c.B := by omega
  have hcf : E.gc = true → NoCopyFault s := fun h => by rw [hg] at h; cases h
  obtain ⟨pre, tl, rfl, hp⟩ := fparts hB0 hi hv
  obtain ⟨upre, utl, rfl, hq⟩ := fparts hB0 hj hw
  have hsz := hp.size
  have hsw := hq.size
  have h' := retok2 hg 0 0 h
  have hvL' : ∀ r ∈ refs v t 0, r ∈ refs w t2 0 ++ (refs v t 0 ++ L) := fun r hr => by simp [hr]
  have hwL' : ∀ r ∈ refs w t2 0, r ∈ refs w t2 0 ++ (refs v t 0 ++ L) := fun r hr => by simp [hr]
  unfold Fc.concatMutR
  have dropw : ∀ {s1 : St Dat T} {x : Vc} {t' : Tree T}, Flex.Inv c t' (pre ++ tl ++ (upre ++ utl)) → t'.shift ≤ max v.shift w.shift + c.B → Is x t' → Inv (sys c E u) s1.mem O (refs x t' 0 ++ (refs w t2 0 ++ (refs v t 0 ++ L))) →
      Kept (sys c E u) O (refs w t2 0 ++ (refs v t 0 ++ L)) s.mem s1.mem →
      Out (((Fc.drop c E w).bind fun _ => M.ret x) s1) (fun s' x => ∃ t', Flex.Inv c t' (pre ++ tl ++ (upre ++ utl)) ∧ t'.shift ≤ max v.shift w.shift + c.B ∧ Is x t' ∧ Inv (sys c E u) s'.mem O (refs x t' k ++ (refs v t k' ++ L)) ∧ Kept (sys c E u) O (refs v t k' ++ L) s.mem s'.mem)
        (fun s' => Gone c E u O (refs w t2 k ++ (refs v t k' ++ L)) s.mem s'.mem) := by
    intro s1 x t' a1 a2 a3 a4 a5
    have hpm : (refs x t' 0 ++ (refs w t2 0 ++ (refs v t 0 ++ L))).Perm (refs w t2 0 ++ (refs x t' 0 ++ (refs v t 0 ++ L))) := List.perm_append_comm_assoc _ _ _
    refine out_bind (out_mono (fdrop_out hB0 hj hw (a4.permL hpm)) (fun _ _ h => h) (fun _ h => h.elim)) ?_
    rintro s2 _ hg2
    refine ⟨t', a1, a2, a3, retok2 hg _ _ hg2.1, kept_ptr (ptr_refs _ 0 fun r hr => ⟨r, hr, rfl⟩) ?_⟩
    exact (Kept.mono a5 (fun r hr => List.mem_append_right _ hr) (fun _ h => h)).trans (Kept.mono hg2.2 (fun r hr => List.mem_append_right _ hr) (fun _ h => h))
  have gone : ∀ {s1 : St Dat T}, Gone c E u O (refs w t2 0 ++ (refs v t 0 ++ L)) s.mem s1.mem → Gone c E u O (refs w t2 k ++ (refs v t k' ++ L)) s.mem s1.mem :=
    fun hg1 => ⟨retok2 hg _ _ hg1.1, kept_retok2 _ _ hg1.2⟩
  by_cases hw0 : w.size = 0
  · rw [if_pos hw0]
    have : upre ++ utl = [] := List.length_eq_zero_iff.1 (by rw [List.length_append]; omega)
    refine out_bind (out_mono (share_out h' hvL' 0) (fun _ _ h => h) (fun _ h => h.elim)) ?_
    rintro s1 _ ⟨h1, h2⟩
    exact dropw (by rw [this]; simpa using hv) (by rw [← hi.shift]; omega) hi h1 h2
  rw [if_neg hw0]
  by_cases h0 : v.size = 0
  · rw [if_pos h0]
    have : pre ++ tl = [] := List.length_eq_zero_iff.1 (by rw [List.length_append]; omega)
    exact ⟨t2, by rw [this]; exact hw, by rw [← hj.shift]; omega, hj, h, .refl⟩
  rw [if_neg h0, bind_ok (off_eq hq hj (refs_ok h' hwL').1.den), bind_ok (off_eq hp hi (refs_ok h' hvL').1.den)]
  have htne : tl ≠ [] := by rintro rfl; rw [hp.nil rfl] at hsz; simp at hsz; omega
  have hutne : utl ≠ [] := by rintro rfl; rw [hq.nil rfl] at hsw; simp at hsw; omega
  refine out_bind (Q := Joint c E u O (refs w t2 0 ++ (refs v t 0 ++ L)) s.mem (max v.shift w.shift + c.B) (pre ++ tl ++ (upre ++ utl))) ?_ ?_
  · by_cases hr0 : upre.length = 0
    · rw [if_pos hr0]
      have : upre = [] := List.length_eq_zero_iff.1 hr0
      subst this
      have hsw' : w.size = utl.length := by simpa using hsw
      refine out_mono (concatTail_out (own := some e) (share := share) hB0 hE (fun h => by rw [hg] at h; cases h) hp hp.froot htne hq.le hutne hsw' h' hvL' (by rw [← hq.tail]; exact hwL' _ (by simp [refs])) ?_) ?_ (fun _ h => gone h)
      · refine hsh.imp id fun hs => ?_
        rw [← hp.rest]
        exact hs _ hp.off'
      · rintro s1 x ⟨t', a1, a2, a3, a4⟩
        exact ⟨t', a1, a2, by omega, a4⟩
    · rw [if_neg hr0, hp.rest]
      refine out_bind (out_mono (trees_out hB hE hp hq htne (by rintro rfl; simp at hr0) h' hvL' hwL' h32 hs32 hcf) (fun _ _ h => h) (fun _ h => gone h)) ?_
      intro s1 x hx
      refine out_bind (out_mono (treesTail_out hq hutne hwL' hx) (fun _ _ h => h) (fun _ h => h.elim)) ?_
      rintro s2 _ hj2
      rw [List.append_assoc (pre ++ tl)] at hj2
      exact hj2
  · rintro s1 x ⟨t', a1, a2, a3, a4, a5⟩
    exact dropw (x := ⟨v.size + w.size, x.1, x.2.1, x.2.2⟩) a1 (by omega) ⟨by rw [hsz, hsw, a1.size]; simp only [List.length_append], a2.symm⟩ a4 a5
end
end FlexHeap
