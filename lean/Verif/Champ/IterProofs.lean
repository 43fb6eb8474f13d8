import Verif.Champ.Iter
import Verif.Champ.EqProps

/-!
# Iteration visits the element list (helper lemmas for C03)
-/

namespace Champ

variable {K T : Type} {c : Cfg K T}

/-- a well-formed proper subtree -/
def GoodCh (c : Cfg K T) (d : Nat) (n : c.N) : Prop :=
  (∃ s p, WF c d s p n) ∧ 2 ≤ (elems c d n).length

/-- elements of the children of a node -/
def below (c : Cfg K T) : Nat → c.N → List T
  | d + 1, .inner _ _ _ cs => cs.flatMap (elems c d)
  | _, _ => []

/-- the path is a chain of children of well-formed nodes; `d` is the level of the deepest one -/
def PathOK (c : Cfg K T) : Nat → List (Frame c) → Prop
  | _, [] => False
  | d, [f] => d = c.maxDepth ∧ ∃ root, f = ⟨[root], 0⟩ ∧ ∃ s p, WF c d s p root
  | d, f :: pf :: rest =>
    (∃ nm dm vs, pf.arr[pf.idx]? = some (.inner nm dm vs f.arr) ∧ f.arr.length = popcount nm) ∧
    f.idx < f.arr.length ∧ (∀ ch ∈ f.arr, GoodCh c d ch) ∧ PathOK c (d + 1) (pf :: rest)

/-- elements to the right of the path -/
def rightRem (c : Cfg K T) : Nat → List (Frame c) → List T
  | _, [] => []
  | _, [_] => []
  | d, f :: pf :: rest => (f.arr.drop (f.idx + 1)).flatMap (elems c d) ++ rightRem c (d + 1) (pf :: rest)

/-- elements still in the current array -/
def Cur.rem : Cur T → List T
  | .null => []
  | .at arr i _ => arr.drop i

/-- the array bounds are right -/
def Cur.OK : Cur T → Prop
  | .null => True
  | .at arr i e => e = arr.length ∧ i ≤ e

/-- all elements still to be visited -/
def remaining (c : Cfg K T) (d : Nat) (n : c.N) (it : Iter c) : List T :=
  it.cur.rem ++ (below c d n ++ rightRem c d it.path)

/-- the current node -/
def headNode (fs : List (Frame c)) : Option c.N := fs.head?.bind fun f => f.arr[f.idx]?

theorem PathOK.len {d : Nat} {fs : List (Frame c)} (h : PathOK c d fs) :
    d + fs.length = c.maxDepth + 1 := by
  induction fs generalizing d with
  | nil => exact h.elim
  | cons f fs ih =>
    cases fs with
    | nil => rw [h.1]; rfl
    | cons pf rest => have := ih h.2.2.2; simp at this ⊢; omega

theorem PathOK.head {d : Nat} {fs : List (Frame c)} (h : PathOK c d fs) :
    ∃ n, headNode fs = some n ∧ ∃ s p, WF c d s p n := by
  cases fs with
  | nil => exact h.elim
  | cons f fs =>
    cases fs with
    | nil =>
      obtain ⟨_, root, rfl, hw⟩ := h
      exact ⟨root, rfl, hw⟩
    | cons pf rest =>
      obtain ⟨_, hlt, hg, _⟩ := h
      exact ⟨f.arr[f.idx], by simp [headNode, hlt], (hg _ (List.getElem_mem hlt)).1⟩

theorem Cur.rem_atEnd {cur : Cur T} (h : cur.OK) (he : cur.atEnd = true) : cur.rem = [] := by
  cases cur with
  | null => rfl
  | «at» arr i e =>
    simp [Cur.atEnd] at he
    simp [Cur.rem]; have := h.1; omega

theorem goodCh_children {d : Nat} {nm dm : BitVec c.W} {vs : List T} {cs : List c.N} {s p : Nat}
    (h : WF c (d + 1) s p (.inner nm dm vs cs)) : ∀ ch ∈ cs, GoodCh c d ch := by
  intro ch hm
  obtain ⟨i, hi⟩ := (mem_iff_sget h.2.2.1 ch).mp hm
  exact ⟨⟨_, _, (h.2.2.2.2 i ch hi).1⟩, (h.2.2.2.2 i ch hi).2⟩

/-- moving the cursor to a node -/
theorem enter_spec {d depth : Nat} {n : c.N} (hd : d + depth = c.maxDepth) {s p : Nat}
    (hw : WF c d s p n) {cur : Cur T} (hok : cur.OK) (he : cur.atEnd = true) :
    ∃ cur', enter c cur depth n = some cur' ∧ cur'.OK ∧ cur'.rem ++ below c d n = elems c d n ∧
      (cur'.atEnd = true → cur'.rem = []) := by
  unfold enter
  cases d with
  | zero =>
    rw [if_neg (by omega)]
    cases n with
    | inner => exact hw.elim
    | collision vs =>
      refine ⟨_, rfl, ⟨rfl, by simp⟩, by simp [Cur.rem, below, elems], ?_⟩
      intro h; exact Cur.rem_atEnd ⟨rfl, by simp⟩ h
  | succ d =>
    rw [if_pos (by omega)]
    cases n with
    | collision => exact hw.elim
    | inner nm dm vs cs =>
      by_cases h0 : dm = 0#c.W
      · have : vs = [] := by
          have := hw.2.1
          rw [h0, popcount_zero] at this; exact List.eq_nil_of_length_eq_zero this
        refine ⟨cur, by simp [h0], hok, ?_, Cur.rem_atEnd hok⟩
        simp [Cur.rem_atEnd hok he, below, elems, this]
      · have hok' : (Cur.at vs 0 (popcount dm)).OK := ⟨hw.2.1.symm, by simp⟩
        exact ⟨.at vs 0 (popcount dm), by simp [h0], hok', by simp [Cur.rem, below, elems],
          Cur.rem_atEnd hok'⟩

/-- invariant of an iterator with the list of elements still to come -/
structure IterOK (c : Cfg K T) (it : Iter c) (l : List T) : Prop where
  cur : it.cur.OK
  path : ∃ d n, PathOK c d it.path ∧ headNode it.path = some n ∧ remaining c d n it = l

theorem stepDown_spec {d : Nat} {n : c.N} {it : Iter c} (hp : PathOK c d it.path)
    (hn : headNode it.path = some n) (hok : it.cur.OK) (he : it.cur.atEnd = true) :
    (stepDown c it = some none ∧ below c d n = []) ∨
    (∃ it' d' n', d = d' + 1 ∧ stepDown c it = some (some it') ∧ it'.cur.OK ∧ PathOK c d' it'.path ∧
      headNode it'.path = some n' ∧ remaining c d' n' it' = remaining c d n it ∧
      (it'.cur.atEnd = true → below c d' n' ≠ [])) := by
  obtain ⟨cur, path⟩ := it
  obtain ⟨n1, hn1, s, p, hw⟩ := hp.head
  rw [hn] at hn1; cases hn1
  have hlen := hp.len
  cases path with
  | nil => exact hp.elim
  | cons f rest =>
    have hf : f.arr[f.idx]? = some n := by simpa [headNode] using hn
    simp only [stepDown, List.length_cons, Nat.add_sub_cancel]
    simp only [List.length_cons] at hlen
    cases d with
    | zero =>
      left
      rw [if_neg (by omega)]
      exact ⟨rfl, by cases n <;> rfl⟩
    | succ d =>
      rw [if_pos (by omega)]
      cases n with
      | collision => exact hw.elim
      | inner nm dm vs cs =>
        simp only [hf, Option.bind_eq_bind, Option.bind_some]
        by_cases h0 : nm = 0#c.W
        · left
          have : cs = [] := by
            have := hw.2.2.1
            rw [h0, popcount_zero] at this; exact List.eq_nil_of_length_eq_zero this
          exact ⟨by simp [h0], by simp [below, this]⟩
        · right
          have hg := goodCh_children hw
          have hcs := hw.2.2.1
          cases cs with
          | nil => exact absurd (popcount_eq_zero (by simpa using hcs.symm)) h0
          | cons ch cs =>
            obtain ⟨⟨s', p', hw'⟩, hge⟩ := hg ch (by simp)
            obtain ⟨cur', h1, h2, h3, h4⟩ := enter_spec (d := d) (depth := rest.length + 1)
              (by omega) hw' (cur := cur) hok he
            refine ⟨⟨cur', ⟨ch :: cs, 0⟩ :: f :: rest⟩, d, ch, rfl, ?_, h2, ?_, rfl, ?_, ?_⟩
            · simp [h0, h1]
            · exact ⟨⟨nm, dm, vs, hf, hcs⟩, by simp, hg, hp⟩
            · have hb : below c (d + 1) (.inner nm dm vs (ch :: cs)) =
                  elems c d ch ++ cs.flatMap (elems c d) := by simp [below]
              simp only [remaining, rightRem, hb, Nat.zero_add, List.drop_one, List.tail_cons,
                Cur.rem_atEnd hok he]
              rw [← h3]; simp
            · intro hend hb
              rw [hb, h4 hend, List.append_nil] at h3
              rw [← h3] at hge; simp at hge

theorem downLoop_spec {d : Nat} {n : c.N} {it : Iter c} {fuel : Nat} (hfuel : d < fuel)
    (hp : PathOK c d it.path)
    (hn : headNode it.path = some n) (hok : it.cur.OK) (he : it.cur.atEnd = true) :
    (∃ it', downLoop c fuel it = some (true, it') ∧ it'.cur.atEnd = false ∧
      IterOK c it' (remaining c d n it)) ∨
    (below c d n = [] ∧ downLoop c fuel it = some (false, it)) := by
  induction fuel generalizing d n it with
  | zero => omega
  | succ fuel ih =>
    rcases stepDown_spec hp hn hok he with ⟨h1, h2⟩ | ⟨it', d', n', rfl, h1, h2, h3, h4, h5, h6⟩
    · right
      exact ⟨h2, by simp [downLoop, h1]⟩
    · left
      simp only [downLoop, h1, Option.bind_eq_bind, Option.bind_some]
      by_cases he' : it'.cur.atEnd = true
      · rcases ih (by omega) h3 h4 h2 he' with ⟨it2, h7, h8, h9⟩ | ⟨h7, _⟩
        · refine ⟨it2, by simp [he', h7], h8, ?_⟩
          rw [← h5]; exact h9
        · exact absurd h7 (h6 he')
      · exact ⟨it', by simp [he'], by simpa using he', ⟨h2, d', n', h3, h4, h5⟩⟩

theorem stepRight_spec {d : Nat} {cur : Cur T} {fs : List (Frame c)} (hp : PathOK c d fs)
    (hok : cur.OK) (he : cur.atEnd = true) :
    (stepRight c cur fs = some none ∧ rightRem c d fs = []) ∨
    (∃ it' d' n', stepRight c cur fs = some (some it') ∧ it'.cur.OK ∧ PathOK c d' it'.path ∧
      headNode it'.path = some n' ∧ remaining c d' n' it' = rightRem c d fs ∧
      (it'.cur.atEnd = true → below c d' n' ≠ [])) := by
  induction fs generalizing d with
  | nil => exact hp.elim
  | cons f fs ih =>
    cases fs with
    | nil => left; exact ⟨rfl, rfl⟩
    | cons pf rest =>
      obtain ⟨⟨nm, dm, vs, hpf, hl⟩, hlt, hg, hrest⟩ := hp
      have hlen := hrest.len
      simp only [List.length_cons] at hlen
      simp only [stepRight, hpf, Option.bind_eq_bind, Option.bind_some]
      by_cases hnext : f.idx + 1 < popcount nm
      · right
        have hnext' : f.idx + 1 < f.arr.length := by omega
        obtain ⟨⟨s', p', hw'⟩, hge⟩ := hg f.arr[f.idx + 1] (List.getElem_mem hnext')
        obtain ⟨cur', h1, h2, h3, h4⟩ := enter_spec (d := d) (depth := rest.length + 1)
          (by omega) hw' (cur := cur) hok he
        refine ⟨⟨cur', ⟨f.arr, f.idx + 1⟩ :: pf :: rest⟩, d, f.arr[f.idx + 1], ?_, h2, ?_, ?_, ?_, ?_⟩
        · simp [hnext, hnext', h1]
        · exact ⟨⟨nm, dm, vs, hpf, hl⟩, hnext', hg, hrest⟩
        · simp [headNode, hnext']
        · simp only [remaining, rightRem]
          rw [List.drop_eq_getElem_cons hnext', List.flatMap_cons, ← h3]
          simp
        · intro hend hb
          rw [hb, h4 hend] at h3
          simp only [List.append_nil] at h3
          rw [← h3] at hge; simp at hge
      · simp only [hnext, if_false]
        have hdrop : f.arr.drop (f.idx + 1) = [] := List.drop_eq_nil_of_le (by omega)
        rcases ih hrest with ⟨h1, h2⟩ | ⟨it', d', n', h1, h2, h3, h4, h5, h6⟩
        · left; exact ⟨h1, by simp [rightRem, hdrop, h2]⟩
        · right
          refine ⟨it', d', n', h1, h2, h3, h4, ?_, h6⟩
          rw [h5]; simp [rightRem, hdrop]

theorem Cur.ne_null_of_not_atEnd {cur : Cur T} (h : cur.atEnd = false) : ∃ arr i e, cur = .at arr i e := by
  cases cur with
  | null => simp [Cur.atEnd] at h
  | «at» arr i e => exact ⟨arr, i, e, rfl⟩

theorem ensureValid_spec {fuel : Nat} (hfuel : c.maxDepth + 2 < fuel) {it : Iter c} {l : List T}
    (h : IterOK c it l) :
    ∃ it', ensureValid c fuel it = some it' ∧
      ((l = [] ∧ it'.cur = .null) ∨ (it'.cur.atEnd = false ∧ IterOK c it' l)) := by
  obtain ⟨hok, d, n, hp, hn, hrem⟩ := h
  have hlen := hp.len
  obtain ⟨f1, rfl⟩ : ∃ f1, fuel = f1 + 1 := ⟨fuel - 1, by omega⟩
  rw [ensureValid]
  by_cases he : it.cur.atEnd = true
  · simp only [he, if_true]
    have hpl : 0 < it.path.length := by
      cases hpp : it.path with
      | nil => rw [hpp] at hp; exact hp.elim
      | cons => simp
    rcases downLoop_spec (fuel := f1) (by omega) hp hn hok he with ⟨it', h1, h2, h3⟩ | ⟨hb, h1⟩
    · rw [hrem] at h3
      exact ⟨it', by simp [h1], .inr ⟨h2, h3⟩⟩
    · simp only [h1, Option.bind_eq_bind, Option.bind_some]
      have hr : l = rightRem c d it.path := by
        rw [← hrem]; simp [remaining, hb, Cur.rem_atEnd hok he]
      rcases stepRight_spec hp hok he with ⟨h2, h3⟩ | ⟨it2, d2, n2, h2, h3, h4, h5, h6, h7⟩
      · refine ⟨⟨.null, _⟩, by simp [h2]; rfl, .inl ⟨by rw [hr, h3], rfl⟩⟩
      · simp only [h2, Option.bind_some]
        have hlen2 := h4.len
        have hpl2 : 0 < it2.path.length := by
          cases hpp : it2.path with
          | nil => rw [hpp] at h4; exact h4.elim
          | cons => simp
        obtain ⟨f2, rfl⟩ : ∃ f2, f1 = f2 + 1 := ⟨f1 - 1, by omega⟩
        rw [ensureValid]
        by_cases he2 : it2.cur.atEnd = true
        · simp only [he2, if_true]
          rcases downLoop_spec (fuel := f2) (by omega) h4 h5 h3 he2 with ⟨it', h8, h9, h10⟩ | ⟨hb2, _⟩
          · rw [h6, ← hr] at h10
            exact ⟨it', by simp [h8], .inr ⟨h9, h10⟩⟩
          · exact absurd hb2 (h7 he2)
        · refine ⟨it2, by simp [he2], .inr ⟨by simpa using he2, h3, d2, n2, h4, h5, ?_⟩⟩
          rw [h6, hr]
  · exact ⟨it, by simp [he], .inr ⟨by simpa using he, hok, d, n, hp, hn, hrem⟩⟩

/-- the iterator states that `begin`/`increment` produce -/
def IterState (c : Cfg K T) (it : Iter c) (l : List T) : Prop :=
  (l = [] ∧ it.cur = .null) ∨ (it.cur.atEnd = false ∧ IterOK c it l)

theorem IterState.step {fuel : Nat} (hfuel : c.maxDepth + 2 < fuel) {it : Iter c} {l : List T}
    (h : IterState c it l) (hne : it.isEnd = false) :
    ∃ x l', l = x :: l' ∧ it.cur.deref = some x ∧
      ∃ it', it.increment c fuel = some it' ∧ IterState c it' l' := by
  rcases h with ⟨_, hnull⟩ | ⟨he, hok, d, n, hp, hn, hrem⟩
  · simp [Iter.isEnd, hnull] at hne
  · obtain ⟨arr, i, e, hcur⟩ := Cur.ne_null_of_not_atEnd he
    rw [hcur] at hok he
    obtain ⟨rfl, hle⟩ := hok
    simp [Cur.atEnd] at he
    have hlt : i < arr.length := by omega
    refine ⟨arr[i], arr.drop (i + 1) ++ (below c d n ++ rightRem c d it.path), ?_, ?_, ?_⟩
    · rw [← hrem, remaining, hcur]
      simp only [Cur.rem]
      rw [List.drop_eq_getElem_cons hlt]; rfl
    · rw [hcur]; simp [Cur.deref, hlt]
    · simp only [Iter.increment, hcur]
      exact ensureValid_spec hfuel ⟨⟨rfl, by omega⟩, d, n, hp, hn, by simp [remaining, Cur.rem]⟩

theorem IterState.end_iff {it : Iter c} {l : List T} (h : IterState c it l) :
    it.isEnd = true ↔ l = [] := by
  constructor
  · intro he
    rcases h with ⟨h1, _⟩ | ⟨h2, _⟩
    · exact h1
    · obtain ⟨arr, i, e, hcur⟩ := Cur.ne_null_of_not_atEnd h2
      simp [Iter.isEnd, hcur] at he
  · rintro rfl
    by_contra hne
    obtain ⟨x, l', h1, _⟩ := h.step (fuel := c.maxDepth + 3) (by omega) (by simpa using hne)
    cases h1

theorem IterState.collect {fuel : Nat} (hfuel : c.maxDepth + 2 < fuel) {it : Iter c} {l : List T}
    (h : IterState c it l) : Iter.collect c fuel l.length it = some l := by
  induction l generalizing it with
  | nil => unfold Iter.collect; simp [h.end_iff.mpr rfl]
  | cons a l ih =>
    have hne : it.isEnd = false := by
      by_contra hh
      have := h.end_iff.mp (by simpa using hh)
      cases this
    obtain ⟨x, l', h1, h2, it', h3, h4⟩ := h.step hfuel hne
    cases h1
    unfold Iter.collect
    simp [hne, h2, h3, ih h4]

theorem begin_spec (hc : c.Lawful) {fuel : Nat} (hfuel : c.maxDepth + 2 < fuel) {m : Map c} (h : m.Inv) :
    ∃ it, Iter.begin c fuel m.root = some it ∧ IterState c it m.els := by
  obtain ⟨d, hd⟩ := maxDepth_pos hc
  have hw := h.wf
  rw [hd] at hw
  have hels : m.els = elems c (d + 1) m.root := by rw [Map.els, hd]
  cases hr : m.root with
  | collision => rw [hr] at hw; exact hw.elim
  | inner nm dm vs cs =>
    rw [hr] at hw hels
    have hpath : PathOK c (d + 1) [⟨[(.inner nm dm vs cs : c.N)], 0⟩] :=
      ⟨hd.symm, _, rfl, 0, 0, hw⟩
    unfold Iter.begin
    by_cases h0 : dm = 0#c.W
    · have hvs : vs = [] := by
        have := hw.2.1
        rw [h0, popcount_zero] at this; exact List.eq_nil_of_length_eq_zero this
      simp only [h0, ne_eq, not_true_eq_false, if_false, Option.bind_eq_bind, Option.bind_some]
      subst h0 hvs
      apply ensureValid_spec hfuel
      refine ⟨trivial, d + 1, _, hpath, rfl, ?_⟩
      rw [hels]; simp [remaining, Cur.rem, below, rightRem, elems]
    · simp only [h0, ne_eq, not_false_eq_true, if_true, Option.bind_eq_bind, Option.bind_some]
      apply ensureValid_spec hfuel
      refine ⟨⟨hw.2.1.symm, by simp⟩, d + 1, _, hpath, rfl, ?_⟩
      rw [hels]; simp [remaining, Cur.rem, below, rightRem, elems]

end Champ
