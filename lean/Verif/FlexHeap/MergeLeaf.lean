import Verif.FlexHeap.Merge

/-!
# `concat_merger` on memory: leaves
-/

namespace FlexHeap
open Mm Rrb VecHeap

variable {T : Type} {c : Cfg} {E : Env Dat T} {u : Toks E.gc} {O : List Nat} {L : List (Ref (Val T))}

section
variable {s : St Dat T} {m m' : Mem Dat T} {p q n i t k l e : Nat} {N : Node T} {xs part : List T} {r : Ref (Val T)} {hm : HMerger} {vm vm' : Merger T}

theorem leafCell_elems : Elems (leafCell c E none k part).els part := ⟨_, rfl⟩

/-- the leaf being filled is finished -/
theorem Par.closeLeaf (h : Par c E u l m (q :: O) L hm vm) (hc : m q = some (leafCell c E none k part)) (hk : part.length ≤ k) (hb : k ≤ 2 ^ c.BL) :
    Par c E u l m O (⟨q, .node (.leaf part), 0, true⟩ :: L) hm vm := by
  refine h.frame ?_ (fun _ _ _ => rfl)
  intro O1 L1 hi
  have hlen := leafCell_length (c := c) (E := E) (own := none) hk hb
  have := close_leaf (t := 0) (hi.perm (O' := q :: (O1 ++ O)) List.perm_middle (List.Perm.refl _)) hc rfl leafCell_elems (fun _ => rfl) (fun hg => by rw [hlen]; exact capL_rc hg)
    (fun hne => absurd tk_none hne) (fun _ => tk_none)
  exact this.permL List.perm_middle.symm

/-- `abort` with a leaf being filled -/
theorem abortLeaf (hB : 0 < c.B) (h : Par c E u 0 s.mem (q :: O) L hm vm) (hv : PVals c 0 vm) (hd : hm.dst = some q) (hto : hm.toOff = part.length) (hc : s.mem q = some (leafCell c E none k part))
    (hk : part.length ≤ k) (hb : k ≤ 2 ^ c.BL) (hg : E.gc = true → part.length = k) : Out (hm.abort c E s) (fun s' _ => Gone c E u O L s.mem s'.mem) (fun _ => False) := by
  unfold HMerger.abort
  obtain ⟨p, t, cl, ct, cap, Lp, Pr, hp, hi⟩ := h
  have hsh : hm.shift - c.B = c.BL := by rw [hp.shift, shift_sub]; simp
  rw [hd]
  simp only
  rw [if_pos hsh, hto]
  have hn := hi.open_nodup
  simp only [List.nodup_cons, List.mem_cons, not_or] at hn
  have hlen := leafCell_length (c := c) (E := E) (own := none) hk hb
  have hi' : Inv (sys c E u) s.mem (q :: p :: t :: O) (Lp ++ (Pr ++ L)) := hi.perm ((List.perm_middle (l₁ := [p, t]))) (List.Perm.refl _)
  refine out_bind (delLeaf_open hi' hc rfl leafCell_elems rfl ?_) ?_
  · rw [hlen, show (leafCell c E none k part).tok = VecHeap.tk E none from rfl, tk_none]
    simp only [bne_self_eq_false, Bool.and_false, Bool.false_eq_true, if_false]
    by_cases hgc : E.gc = true
    · rw [hg hgc]; rfl
    · rw [capL_rc (by simpa using hgc), leafRoom_rc (by simpa using hgc)]
  · intro s1 _ hg1
    have hp1 : s1.mem p = s.mem p := hg1.2.2 p (by simp)
    have ht1 : s1.mem t = s.mem t := hg1.2.2 t (by simp)
    have hpar : Par c E u 0 s1.mem O L hm vm := ⟨p, t, cl, ct, cap, Lp, Pr, { hp with op := hp.op.mem hp1, tb := hp.tb.mem ht1 }, hg1.1⟩
    refine out_mono (hpar.abort hB hv) ?_ (fun _ h => h)
    intro s2 _ hg2
    exact ⟨hg2.1, (hg1.2.mono (fun x hx => by simp [hx]) (fun a ha => by simp [ha])).trans hg2.2⟩

/-- `abort` without -/
theorem abortNone (hB : 0 < c.B) (h : Par c E u l s.mem O L hm vm) (hv : PVals c l vm) (hd : hm.dst = none) : Out (hm.abort c E s) (fun s' _ => Gone c E u O L s.mem s'.mem) (fun _ => False) := by
  unfold HMerger.abort
  rw [hd]
  exact h.abort hB hv

theorem addChild_some {p : Node T} (h : Merger.addChild c vm p n = some vm') : ∃ v1, Merger.room' c vm = some v1 ∧ Merger.put c v1 p n = some vm' := by
  rw [addChild_room] at h
  exact Option.bind_eq_some_iff.mp h

theorem room_len {v1 : Merger T} (hl : vm.sz.length = vm.cs.length) (h : Merger.room' c vm = some v1) : v1.sz.length = v1.cs.length := by
  unfold Merger.room' at h
  split at h
  · split at h
    · cases h; rfl
    · cases h
  · cases h; exact hl

/-- `add_child` for the leaf being filled -/
theorem addDstLeaf (hB : 0 < c.B) (hE : E.Fresh) (h : Par c E u 0 s.mem (q :: O) L hm vm) (hv : PVals c 0 vm) (hd : hm.dst = some q) (hto : hm.toOff = part.length)
    (hc : s.mem q = some (leafCell c E none part.length part)) (hb : part.length ≤ 2 ^ c.BL) (ha : Merger.addChild c vm (.leaf part) part.length = some vm') :
    Out (hm.addDst c E q part.length s) (fun s' hm' => Par c E u 0 s'.mem O L hm' vm' ∧ Kept (sys c E u) O L s.mem s'.mem ∧ hm'.dst = none) (fun s' => Gone c E u O L s.mem s'.mem) := by
  obtain ⟨v1, hr, hput⟩ := addChild_some ha
  unfold HMerger.addDst
  refine out_bind (out_guard (mkRoom_out hE h hr) ?_) ?_
  · intro s1 hs1
    refine out_mono (abortLeaf hB (s := s1) (by rw [hs1]; exact h) hv hd hto (by rw [hs1]; exact hc) (Nat.le_refl _) hb (fun _ => rfl)) ?_ (fun _ h => h)
    intro s2 _ hg
    rwa [hs1] at hg
  · rintro s1 hm1 ⟨h1, hk1, -, -, -⟩
    have hc1 : s1.mem q = some (leafCell c E none part.length part) := (hk1.2 q List.mem_cons_self).trans hc
    have h2 := h1.closeLeaf hc1 (Nat.le_refl _) hb
    refine out_bind (out_mono (put_out (r := ⟨q, .node (.leaf part), 0, true⟩) h2 rfl (fun _ => rfl) (room_len hv.len hr) hput) (fun _ _ h => h) (fun _ h => h.elim)) ?_
    rintro s2 hm2 ⟨h3, hk3, -, -, -⟩
    refine ⟨h3.fields rfl rfl rfl rfl rfl rfl rfl rfl rfl rfl rfl rfl, ?_, rfl⟩
    exact (Kept.open hk1).trans (Kept.tail hk3)

/-- `add_child` for a node that is shared -/
theorem addShared_out (hB : 0 < c.B) (hE : E.Fresh) (h : Par c E u l s.mem O L hm vm) (hv : PVals c l vm) (hd : hm.dst = none) (hat : At (sys c E u) s.mem L q (.node N)) (hsh : Sh (sys c E u) s.mem L q)
    (ha : Merger.addChild c vm N n = some vm') :
    Out (hm.addShared c E q n s) (fun s' hm' => Par c E u l s'.mem O L hm' vm' ∧ Kept (sys c E u) O L s.mem s'.mem ∧ hm'.dst = none) (fun s' => Gone c E u O L s.mem s'.mem) := by
  obtain ⟨v1, hr, hput⟩ := addChild_some ha
  unfold HMerger.addShared
  refine out_bind (out_guard (mkRoom_out hE h hr) ?_) ?_
  · intro s1 hs1
    refine out_mono (abortNone hB (s := s1) (by rw [hs1]; exact h) hv hd) ?_ (fun _ h => h)
    intro s2 _ hg
    rwa [hs1] at hg
  · rintro s1 hm1 ⟨⟨p, t, cl, ct, cap, Lp, Pr, hp, hi⟩, hk1, hd1, -, -⟩
    have hmem : ∀ x ∈ L, x ∈ Lp ++ (Pr ++ L) := fun x hx => by simp [hx]
    refine out_bind (out_mono (incS_ref hi ((hat.kept hk1).mono hmem) ((hsh.kept hk1).mono hmem) 0) (fun _ _ h => h) (fun _ h => h.elim)) ?_
    rintro s2 _ ⟨hi2, hk2⟩
    have hpar : Par c E u l s2.mem O (⟨q, .node N, 0, false⟩ :: L) hm1 v1 :=
      ⟨p, t, cl, ct, cap, Lp, Pr, { hp with op := hp.op.mem (hk2.2 p (by simp)), tb := hp.tb.mem (hk2.2 t (by simp)) }, hi2.permL (by
        have := (List.perm_middle (a := (⟨q, .node N, 0, false⟩ : Ref (Val T))) (l₁ := Lp ++ Pr) (l₂ := L)).symm
        simpa [List.append_assoc] using this)⟩
    refine out_mono (put_out (r := ⟨q, .node N, 0, false⟩) hpar rfl (fun _ => rfl) (room_len hv.len hr) hput) ?_ (fun _ h => h.elim)
    rintro s3 hm3 ⟨h3, hk3, hd3, -, -⟩
    exact ⟨h3, (hk1.trans (hk2.mono hmem (fun a ha => by simp [ha]))).trans (Kept.tail hk3), hd3.trans (hd1.trans hd)⟩

/-- the leaf being filled -/
def DstL (c : Cfg) (E : Env Dat T) (u : Toks E.gc) (m : Mem Dat T) (O : List Nat) (L : List (Ref (Val T))) (hm : HMerger) (vm : Merger T) (part : List T) : Prop :=
  (part = [] ∧ hm.dst = none ∧ Par c E u 0 m O L hm vm) ∨
  (part ≠ [] ∧ ∃ q k, hm.dst = some q ∧ hm.toOff = part.length ∧ vm.curr.head? = some k ∧ m q = some (leafCell c E none k part) ∧ Par c E u 0 m (q :: O) L hm vm)

theorem DstL.curr (h : DstL c E u m O L hm vm part) : hm.curr = vm.curr := by
  rcases h with ⟨-, -, h⟩ | ⟨-, q, k, -, -, -, -, h⟩ <;>
  · obtain ⟨p, t, cl, ct, cap, Lp, Pr, hp, -⟩ := h
    exact hp.curr

/-- one round of the loop on values -/
theorem leafStep {N rem : Nat} {out : List (Node T)} (h : MLeaf c N vm out part rem) (hne : xs ≠ []) (hle : xs.length ≤ rem) :
    ∃ k ks j, vm.curr = k :: ks ∧ k ≤ 2 ^ c.BL ∧ part.length < k ∧ j = min xs.length (k - part.length) ∧
      (k = part.length + j → ∃ m1, Merger.addChild c vm (.leaf (part ++ xs.take j)) (part ++ xs.take j).length = some m1 ∧
        MLeaf c N { m1 with toLeaf := none } (out ++ [.leaf (part ++ xs.take j)]) [] (rem - j) ∧
        ∀ fuel, Merger.leafLoop c (fuel + 1) vm xs = if j = xs.length then some { m1 with toLeaf := none } else Merger.leafLoop c fuel { m1 with toLeaf := none } (xs.drop j)) ∧
      (k ≠ part.length + j → j = xs.length ∧ MLeaf c N { vm with toLeaf := some (part ++ xs) } out (part ++ xs) (rem - xs.length) ∧
        ∀ fuel, Merger.leafLoop c (fuel + 1) vm xs = some { vm with toLeaf := some (part ++ xs) }) := by
  have hx1 : 1 ≤ xs.length := List.length_pos_iff.2 hne
  have hsum := h.sum
  obtain ⟨k, ks, hcur⟩ : ∃ k ks, vm.curr = k :: ks := by
    cases hc : vm.curr with
    | nil => rw [hc] at hsum; simp at hsum; omega
    | cons k ks => exact ⟨k, ks, rfl⟩
  have hk := h.counts k (by rw [hcur]; simp)
  have hpk : part.length < k := by
    by_cases hp : part = []
    · subst hp; simp; omega
    · obtain ⟨k', ks', h1, h2⟩ := h.room hp
      rw [hcur] at h1; simp at h1; omega
  rw [hcur] at hsum
  simp only [List.sum_cons] at hsum
  have hlen := h.len
  rw [hcur] at hlen; simp at hlen
  refine ⟨k, ks, min xs.length (k - part.length), hcur, hk.2, hpk, rfl, ?_, ?_⟩
  · generalize hj : min xs.length (k - part.length) = j
    intro hfull
    have hdl : (part ++ xs.take j).length = part.length + j := by simp; omega
    have hw : WF c 0 (.leaf (part ++ xs.take j)) := ⟨by omega, by omega⟩
    obtain ⟨m1, a1, a2, a3, a4, a5⟩ := addChild_ok h.core (by omega) hw
    simp only [els] at a1
    refine ⟨m1, a1, ?_, ?_⟩
    · refine ⟨⟨a2.grp, a2.sz, a2.cs, a2.size, a2.N3, a2.wf⟩, ?_, ?_, ?_, by simp, ?_, by simp⟩
      · simp [a3, hcur]; omega
      · intro y hy; simp only [a3, hcur, List.tail_cons] at hy
        exact h.counts y (by rw [hcur]; simp [hy])
      · simp [a3, hcur]; omega
      · simp [a5, h.inner]
    · intro fuel
      simp only [Merger.leafLoop, hcur, h.getD, List.head?_cons, Option.bind_eq_bind, Option.bind_some, hj]
      rw [if_pos (by omega)]
      simp only [mkLeaf, if_pos (show (part ++ xs.take j).length ≤ 2 ^ c.BL by omega), Option.bind_some, a1]
  · generalize hj : min xs.length (k - part.length) = j
    intro hfull
    have hjx : j = xs.length := by omega
    have e : xs.take j = xs := by rw [hjx, List.take_length]
    refine ⟨hjx, ?_, ?_⟩
    · refine ⟨⟨h.core.grp, h.core.sz, h.core.cs, h.core.size, h.core.N3, h.core.wf⟩, by simp [hcur]; omega, ?_, ?_, ?_, h.inner, ?_⟩
      · intro y hy; exact h.counts y hy
      · simp [hcur]; omega
      · simp [hne]
      · intro _; exact ⟨k, ks, hcur, by simp; omega⟩
    · intro fuel
      simp only [Merger.leafLoop, hcur, h.getD, List.head?_cons, Option.bind_eq_bind, Option.bind_some, hj, e]
      rw [if_neg (by simp; omega), if_pos hjx, ← hcur]

/-- elements are copied to the leaf being filled -/
theorem copyDst (h : Par c E u 0 s.mem (q :: O) L hm vm) (hc : s.mem q = some (leafCell c E none k part)) {src off j : Nat} (ha : At (sys c E u) s.mem L src (.node (.leaf xs)))
    (hoff : off + j ≤ xs.length) (hk : part.length + j ≤ k) (hb : k ≤ 2 ^ c.BL) :
    Out (uninitCopy src off j q part.length s) (fun s' _ => s'.mem q = some (leafCell c E none k (part ++ (xs.drop off).take j)) ∧ Par c E u 0 s'.mem (q :: O) L hm vm ∧ Kept (sys c E u) O L s.mem s'.mem)
      (fun s' => s'.mem = s.mem ∧ ¬ NoCopyFault s) := by
  obtain ⟨O', L', hi, hO, hL⟩ := h.kept
  obtain ⟨cs, hcs, hd, hx, hno⟩ := at_leaf hi (ha.mono hL)
  have hne : src ≠ q := fun he => hno (he ▸ hO q List.mem_cons_self)
  have hlen : ((xs.drop off).take j).length = j := by simp; omega
  have hcap := capL_le (c := c) (E := E) (own := none) hb
  refine out_mono (uninitCopy_out (pre := part.map .live) (post := List.replicate (capL c E none k - (part.length + j)) .raw) (ys := (xs.drop off).take j) hne hc (by simp) hcs hlen.symm ?_ ?_) ?_ (fun _ h => h)
  · intro i hi
    rw [hx.get (by omega), List.getElem?_take_of_lt hi, List.getElem?_drop]
  · show part.map Slot.live ++ List.replicate (capL c E none k - part.length) .raw = _
    rw [List.append_assoc, List.replicate_append_replicate]
    congr 2
    omega
  · rintro s' _ ⟨hs', -⟩
    have he : ({ leafCell c E none k part with els := part.map .live ++ ((xs.drop off).take j).map .live ++ List.replicate (capL c E none k - (part.length + j)) .raw } : Cell Dat T) =
        leafCell c E none k (part ++ (xs.drop off).take j) := by
      unfold leafCell
      rw [List.map_append, List.length_append, hlen]
    rw [he] at hs'
    refine ⟨by rw [hs']; exact upd_self, ?_, ?_⟩
    · rw [hs']
      refine h.frame (fun O1 L1 hi => hi.write (by simp) _) ?_
      intro a ha _
      exact upd_ne (fun h => ha (h ▸ List.mem_cons_self))
    · rw [hs']
      obtain ⟨p, t, cl, ct, cap, Lp, Pr, hp, h⟩ := h
      have := Kept.write (h.perm (List.perm_middle (l₁ := [p, t])) (List.Perm.refl _)) (some (leafCell c E none k (part ++ (xs.drop off).take j)))
      exact this.mono (fun x hx => by simp [hx]) (fun a ha => by simp [ha])

/-- the loop of `merge_leaf` -/
theorem leafLoop_out (hB : 0 < c.B) (hE : E.Fresh) {N src : Nat} : ∀ (fuel : Nat) (hm : HMerger) (vm : Merger T) (out : List (Node T)) (part : List T) (rem off : Nat) (s : St Dat T), MLeaf c N vm out part rem →
    DstL c E u s.mem O L hm vm part → At (sys c E u) s.mem L src (.node (.leaf xs)) → off < xs.length → xs.length - off ≤ rem → xs.length - off < fuel → (E.gc = true → NoCopyFault s) →
    Out (HMerger.leafLoop c E src fuel hm off (xs.length - off) s) (fun s' hm' => ∃ vm' out' part', Merger.leafLoop c fuel vm (xs.drop off) = some vm' ∧ MLeaf c N vm' out' part' (rem - (xs.length - off)) ∧
      DstL c E u s'.mem O L hm' vm' part' ∧ Kept (sys c E u) O L s.mem s'.mem) (fun s' => Gone c E u O L s.mem s'.mem) := by
  intro fuel
  induction fuel with
  | zero => intro hm vm out part rem off s _ _ _ _ _ h; omega
  | succ fuel ih =>
    intro hm vm out part rem off s h hd ha hoff hle hf hcf
    have hdl : (xs.drop off).length = xs.length - off := by simp
    obtain ⟨k, ks, j, hcur, hk, hpk, hj, hfull, hpart⟩ := leafStep h (xs := xs.drop off) (by rw [Ne, List.drop_eq_nil_iff]; omega) (by omega)
    rw [hdl] at hj
    have hv := PVals.of h.core
    unfold HMerger.leafLoop
    rw [bind_ok (liftO_eq (b := k) (by rw [hd.curr, hcur]; rfl))]
    refine out_bind (Q := fun s1 r => r.1.toOff = part.length ∧ r.1.dst = some r.2 ∧ s1.mem r.2 = some (leafCell c E none k part) ∧ Par c E u 0 s1.mem (r.2 :: O) L r.1 vm ∧
      Kept (sys c E u) O L s.mem s1.mem ∧ (E.gc = true → NoCopyFault s1)) ?_ ?_
    · rcases hd with ⟨rfl, hdst, hpar⟩ | ⟨hne, q, k', hdst, hto, hk', hc, hpar⟩
      · rw [hdst]
        obtain ⟨O', L', hi, hO, hL⟩ := hpar.kept
        refine out_bind (Q := fun s1 d => s.mem d = none ∧ s1.mem = upd s.mem d (some (leafCell c E none k ([] : List T))) ∧ (NoCopyFault s → NoCopyFault s1)) ?_ ?_
        · refine out_guard (E' := fun s1 => s1.mem = s.mem) ?_ ?_
          · refine out_mono (out_noCopy (calm_newLeaf c E none k) (newLeaf_out hE hi)) ?_ (fun _ h => h)
            rintro s1 d ⟨⟨h1, h2⟩, h3⟩
            exact ⟨h1, h2, h3⟩
          · intro s1 hs1
            refine out_mono (abortNone hB (s := s1) (by rw [hs1]; exact hpar) hv hdst) ?_ (fun _ h => h)
            intro s2 _ hg
            rwa [hs1] at hg
        · rintro s1 d ⟨hn, hs1, hcf1⟩
          refine ⟨rfl, rfl, by rw [hs1]; exact upd_self, ?_, ?_, fun hg => hcf1 (hcf hg)⟩
          · rw [hs1]
            refine (hpar.frame (O' := d :: O) (L' := L) (fun O1 L1 hi => (hi.alloc hn _).perm List.perm_middle.symm (List.Perm.refl _)) ?_).fields rfl rfl rfl rfl rfl rfl rfl rfl rfl rfl rfl rfl
            intro a _ hna
            exact upd_ne (fun h => hna (h ▸ hn))
          · rw [hs1]
            exact (Kept.new hi hn _).mono hL hO
      · rw [hdst]
        rw [hcur] at hk'
        cases hk'
        exact ⟨hto, hdst, hc, hpar, .of_eq rfl, hcf⟩
    · rintro s1 ⟨hm1, d⟩ ⟨hto, hdst, hc, hpar, hk1, hcf1⟩
      simp only at hto hdst hc hpar ⊢
      rw [hto, ← hj]
      have ha1 := ha.kept hk1
      refine out_bind (Q := fun s2 _ => s2.mem d = some (leafCell c E none k (part ++ (xs.drop off).take j)) ∧ Par c E u 0 s2.mem (d :: O) L hm1 vm ∧ Kept (sys c E u) O L s.mem s2.mem ∧
        (E.gc = true → NoCopyFault s2)) ?_ ?_
      · refine out_guard (E' := fun s2 => s2.mem = s1.mem ∧ ¬ NoCopyFault s1) ?_ ?_
        · refine out_mono (out_noCopy (calm_uninitCopy _ _ _ _ _) (copyDst hpar hc ha1 (by omega) (by omega) hk)) ?_ (fun _ h => h)
          rintro s2 _ ⟨⟨h1, h2, h3⟩, h4⟩
          exact ⟨h1, h2, hk1.trans h3, fun hg => h4 (hcf1 hg)⟩
        · rintro s2 ⟨hs2, hno⟩
          refine out_mono (abortLeaf hB (s := s2) (by rw [hs2]; exact hpar) hv hdst hto (by rw [hs2]; exact hc) (by omega) hk (fun hg => absurd (hcf1 hg) hno)) ?_ (fun _ h => h)
          intro s3 _ hg
          rw [hs2] at hg
          exact Gone.trans hk1 hg
      · rintro s2 _ ⟨hc2, hpar2, hk2, hcf2⟩
        have hlp : (part ++ (xs.drop off).take j).length = part.length + j := by simp; omega
        by_cases hcase : k = part.length + j
        · obtain ⟨m1, ha', hm1', hval⟩ := hfull hcase
          rw [if_pos hcase]
          have hcn := out_noCopy (s := s2) (calm_addDst c E ({ hm1 with toOff := part.length + j } : HMerger) d (part.length + j))
            (Q := fun s' hm' => Par c E u 0 s'.mem O L hm' m1 ∧ Kept (sys c E u) O L s2.mem s'.mem ∧ hm'.dst = none) (F := fun s' => Gone c E u O L s2.mem s'.mem) ?_
          · refine out_bind (out_mono hcn (fun _ _ h => h) (fun _ hg => Gone.trans hk2 hg)) ?_
            rintro s3 hm3 ⟨⟨hpar3, hk3, hd3⟩, hcf3⟩
            have hd3' : DstL c E u s3.mem O L hm3 { m1 with toLeaf := none } [] := .inl ⟨rfl, hd3, hpar3.fields rfl rfl rfl rfl rfl rfl rfl rfl rfl rfl rfl rfl⟩
            by_cases hend : j = xs.length - off
            · rw [if_pos hend]
              refine ⟨{ m1 with toLeaf := none }, out ++ [.leaf (part ++ (xs.drop off).take j)], [], ?_, ?_, hd3', hk2.trans hk3⟩
              · rw [hval, if_pos (by omega)]
              · rw [← hend]; exact hm1'
            · rw [if_neg hend]
              have hk' := hk2.trans hk3
              have := ih hm3 _ _ [] (rem - j) (off + j) s3 hm1' hd3' (ha.kept hk') (by omega) (by omega) (by omega) (fun hg => hcf3 (hcf2 hg))
              rw [show xs.length - off - j = xs.length - (off + j) by omega]
              refine out_mono this ?_ (fun _ hg => Gone.trans hk' hg)
              rintro s4 hm4 ⟨vm', out', part', b1, b2, b3, b4⟩
              refine ⟨vm', out', part', ?_, ?_, b3, hk'.trans b4⟩
              · rw [hval, if_neg (by omega), List.drop_drop]; exact b1
              · rw [show rem - (xs.length - off) = rem - j - (xs.length - (off + j)) by omega]; exact b2
          · have := addDstLeaf (part := part ++ (xs.drop off).take j) (hm := { hm1 with toOff := part.length + j }) hB hE (hpar2.fields rfl rfl rfl rfl rfl rfl rfl rfl rfl rfl rfl rfl) hv hdst hlp.symm
              (by rw [hlp, ← hcase]; exact hc2) (by omega) ha'
            rw [hlp] at this
            exact this
        · obtain ⟨hjx, hm', hval⟩ := hpart hcase
          rw [hdl] at hjx hm'
          rw [if_neg hcase]
          have htk : (xs.drop off).take j = xs.drop off := List.take_of_length_le (by simp; omega)
          show Out ((if j = xs.length - off then _ else _ : HM T HMerger) s2) _ _
          rw [if_pos hjx]
          refine ⟨_, _, _, hval _, hm', .inr ⟨?_, d, k, hdst, ?_, by rw [hcur]; rfl, ?_, ?_⟩, hk2⟩
          · intro h0
            have := congrArg List.length h0
            simp at this; omega
          · show part.length + j = _
            rw [← hlp, htk]
          · rw [← htk]; exact hc2
          · exact hpar2.fields rfl rfl rfl rfl rfl rfl rfl rfl rfl rfl rfl rfl

theorem subSize {l : Nat} {p : Pos T} {ys : List T} (h : PosOK c l p ys) (hs : SubPos p) : p.size c = some ys.length := by
  cases l with
  | zero =>
    match p, h, hs with
    | .leafSub n k, hp, _ => obtain ⟨-, rfl, -⟩ := hp; rfl
    | .fullLeaf n, hp, _ => obtain ⟨-, hp⟩ := hp; simp [Pos.size, hp]
  | succ l => exact SubPos.size h hs

/-- `merge_leaf` -/
theorem mergeLeaf_out (hB : 0 < c.B) (hE : E.Fresh) {M rem : Nat} {out : List (Node T)} {x : HPos} (h : MLeaf c M vm out part rem) (hd : DstL c E u s.mem O L hm vm part) (hp : PosR c E u s.mem L 0 x N)
    (hle : (els 0 N).length ≤ rem) (hcf : E.gc = true → NoCopyFault s) :
    Out (hm.mergeLeaf c E x.1 x.2 s) (fun s' hm' => ∃ vm' out' part', Merger.mergeLeaf c vm (x.2.pos N) = some vm' ∧ MLeaf c M vm' out' part' (rem - (els 0 N).length) ∧
      DstL c E u s'.mem O L hm' vm' part' ∧ Kept (sys c E u) O L s.mem s'.mem) (fun s' => Gone c E u O L s.mem s'.mem) := by
  obtain ⟨m1, new, part1, hval, hml, -⟩ := mergeLeaf_ok h hp.fits hp.sub hle
  obtain ⟨hn, hcnt, h1, h2, -⟩ := PosOK.leaf hp.fits
  have hsize := subSize hp.fits hp.sub
  rw [rpos_node] at hn
  rw [rpos_count] at hcnt
  rw [rpos_size] at hsize
  have hsum := h.sum
  obtain ⟨k, ks, hcur⟩ : ∃ k ks, vm.curr = k :: ks := by
    cases hc : vm.curr with
    | nil => rw [hc] at hsum; simp at hsum; omega
    | cons k ks => exact ⟨k, ks, rfl⟩
  have hcurr := hd.curr
  unfold HMerger.mergeLeaf
  rw [bind_ok (liftO_eq hsize), bind_ok (liftO_eq (b := k) (by rw [hcurr, hcur]; rfl)), hcnt]
  have hval' := hval
  simp only [Merger.mergeLeaf, rpos_size, rpos_count, hsize, hcnt, hcur, List.head?_cons, Option.bind_eq_bind, Option.bind_some, rpos_node] at hval'
  have hiff : vm.toLeaf.isNone = true ↔ hm.dst = none := by
    rw [h.leaf]
    rcases hd with ⟨rfl, h0, -⟩ | ⟨hne, q, k', h0, -⟩
    · simp [h0]
    · simp [hne, h0]
  by_cases hcase : hm.dst = none ∧ k = (els 0 N).length
  · rw [if_pos hcase]
    rw [if_pos ⟨hiff.mpr hcase.1, hcase.2⟩] at hval'
    have hpart : part = [] := by
      rcases hd with ⟨h0, -⟩ | ⟨-, q, k', h0, -⟩
      · exact h0
      · rw [hcase.1] at h0; cases h0
    rcases hd with ⟨-, hdn, hpar⟩ | ⟨hne, -⟩
    · refine out_mono (addShared_out hB hE hpar (PVals.of h.core) hdn hp.at_ hp.sh hval') ?_ (fun _ h => h)
      rintro s' hm' ⟨a1, a2, a3⟩
      have hp1 : part1 = [] := by
        obtain ⟨v1, r1, r2⟩ := addChild_some hval'
        have e1 : m1.toLeaf = vm.toLeaf := by
          unfold Merger.put at r2
          split at r2
          · obtain ⟨b, _, hb⟩ := Option.bind_eq_some_iff.mp r2
            cases hb
            unfold Merger.room' at r1
            split at r1
            · split at r1
              · cases r1; rfl
              · cases r1
            · cases r1; rfl
          · cases r2
        have h3 := hml.leaf
        rw [e1, h.leaf, hpart] at h3
        by_contra hc
        simp [hc] at h3
      rw [hp1] at hml
      exact ⟨m1, _, [], hval, hml, .inl ⟨rfl, a3, a1⟩, a2⟩
    · exact absurd hpart hne
  · rw [if_neg hcase]
    have hlf : N = .leaf (els 0 N) := hn
    have hat := hp.at_
    rw [hlf] at hat
    have := leafLoop_out (u := u) (O := O) (L := L) (src := x.1) hB hE ((els 0 N).length + 1) hm vm out part rem 0 s h hd hat (by omega) (by omega) (by omega) hcf
    simp only [Nat.sub_zero] at this
    refine out_mono this ?_ (fun _ h => h)
    rintro s' hm' ⟨vm', out', part', b1, b2, b3, b4⟩
    refine ⟨vm', out', part', ?_, b2, b3, b4⟩
    simp only [Merger.mergeLeaf, rpos_size, rpos_count, hsize, hcnt, hcur, List.head?_cons, Option.bind_eq_bind, Option.bind_some, rpos_node]
    rw [if_neg (by rw [hiff]; exact hcase)]
    have h3 : N.leaf? = some (els 0 N) := (congrArg Node.leaf? hlf).trans rfl
    rw [h3]
    have h4 : slice (els 0 N) 0 (els 0 N).length = some (els 0 N) := by simp [slice]
    simp only [Option.bind_some, h4]
    exact b1

end
end FlexHeap
