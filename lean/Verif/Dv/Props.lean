import Verif.Dv.Loses
import Verif.Dv.Spec

/-!
# `dvektor`: what programs can rely on

C51: a `dvektor` behaves as an immutable sequence.  C52: its iterators visit the elements.
-/

namespace Dv

variable {T : Type} {B : Nat} [Inhabited T]

/-- run an operation: the new version is added to those there are -/
def step (B : Nat) (w : Mem T × List Impl) : Cmd T → Option (Mem T × List Impl)
  | .push v x => w.2[v]?.bind fun s => (pushBack B s x w.1).map fun (m, s') => (m, w.2 ++ [s'])
  | .update v i f => w.2[v]?.bind fun s => (update B s i f w.1).map fun (m, s') => (m, w.2 ++ [s'])

def runs (B : Nat) (w : Mem T × List Impl) : List (Cmd T) → Option (Mem T × List Impl)
  | [] => some w
  | c :: cs => (step B w c).bind fun w => runs B w cs

/-- from no nodes and an empty vector -/
def start : Mem T × List Impl := ([], [empty])

/-- the vectors there are have the elements they should -/
structure Inv (B : Nat) (w : Mem T × List Impl) (vs : List (Ver T)) : Prop where
  good : Good B w.1
  len : w.2.length = vs.length
  rep : ∀ (v : Nat) (s : Impl) (a : Ver T), w.2[v]? = some s → vs[v]? = some a → Rep B w.1 s a.val
  pushed : ∀ (v : Nat) (s : Impl) (a : Ver T), w.2[v]? = some s → vs[v]? = some a → a.pushed = true → a.val ≠ [] → blk B 1 s.focus = blk B 1 (a.val.length - 1)

theorem inv_start : Inv B (start : Mem T × List Impl) [⟨[], true⟩] := by
  refine ⟨fun a n h => by simp [start] at h, rfl, fun v s a hs ha => ?_, fun v s a hs ha _ hn => ?_⟩
  · cases v with
    | zero => simp [start] at hs ha; subst hs ha; exact rep_empty _
    | succ v => simp at ha
  · cases v with
    | zero => simp at ha; subst ha; simp at hn
    | succ v => simp at ha

/-- adding a version -/
theorem Inv.add {w : Mem T × List Impl} {vs : List (Ver T)} (h : Inv B w vs) {m' : Mem T} {s' : Impl} {a' : Ver T} (hg : Good B m')
    (ha : Agree w.1.length w.1 m') (hr : Rep B m' s' a'.val) (hp : a'.pushed = true → a'.val ≠ [] → blk B 1 s'.focus = blk B 1 (a'.val.length - 1)) :
    Inv B (m', w.2 ++ [s']) (vs ++ [a']) := by
  have key : ∀ (v : Nat) (s : Impl) (a : Ver T), (w.2 ++ [s'])[v]? = some s → (vs ++ [a'])[v]? = some a → (w.2[v]? = some s ∧ vs[v]? = some a) ∨ (s = s' ∧ a = a') := by
    intro v s a hs ha
    rcases Nat.lt_or_ge v vs.length with hl | hl
    · rw [List.getElem?_append_left (by rw [h.len]; exact hl)] at hs
      rw [List.getElem?_append_left hl] at ha
      exact .inl ⟨hs, ha⟩
    · rw [List.getElem?_append_right (by rw [h.len]; exact hl), h.len] at hs
      rw [List.getElem?_append_right hl] at ha
      rw [List.getElem?_singleton] at hs ha
      split at hs
      · simp_all
      · cases hs
  refine ⟨hg, by simp [h.len], fun v s a hs ha' => ?_, fun v s a hs ha' => ?_⟩
  · rcases key v s a hs ha' with ⟨h1, h2⟩ | ⟨rfl, rfl⟩
    · exact (h.rep v s a h1 h2).agree h.good ha
    · exact hr
  · rcases key v s a hs ha' with ⟨h1, h2⟩ | ⟨rfl, rfl⟩
    · exact h.pushed v s a h1 h2
    · exact hp

theorem Inv.ver {w : Mem T × List Impl} {vs : List (Ver T)} (h : Inv B w vs) {v : Nat} {a : Ver T} (ha : vs[v]? = some a) : ∃ s, w.2[v]? = some s := by
  have := (List.getElem?_eq_some_iff.1 ha).1
  exact ⟨_, List.getElem?_eq_getElem (by rw [h.len]; exact this)⟩

theorem step_ok (hB : 0 < B) {w : Mem T × List Impl} {vs : List (Ver T)} (h : Inv B w vs) {c : Cmd T} (hc : Allowed B (maxDepth B) vs c) :
    ∃ w', step B w c = some w' ∧ Inv B w' (sstep vs c) := by
  cases c with
  | push v x =>
      obtain ⟨a, ha, hM, hc⟩ := hc
      obtain ⟨s, hs⟩ := h.ver ha
      have hr := h.rep v s a hs ha
      have hcond : a.val.length ≤ 2 ^ (3 * B) ∨ blk B 1 s.focus = blk B 1 (a.val.length - 1) := by
        rcases hc with hc | hc
        · exact .inl hc
        · by_cases he : a.val = []
          · left; simp [he]
          · exact .inr (h.pushed v s a hs ha hc he)
      obtain ⟨m', s', he, hg', ha', hr', hf'⟩ := pushBack_ok hB h.good hr hM hcond x
      refine ⟨(m', w.2 ++ [s']), by simp [step, hs, he], ?_⟩
      simp only [sstep, ha, Option.map_some, Option.toList_some]
      exact h.add hg' ha' hr' (fun _ _ => by simpa using hf')
  | update v i f =>
      obtain ⟨a, ha, hi⟩ := hc
      obtain ⟨s, hs⟩ := h.ver ha
      obtain ⟨m', s', he, hg', ha', hr'⟩ := update_ok hB h.good (h.rep v s a hs ha) hi f
      refine ⟨(m', w.2 ++ [s']), by simp [step, hs, he], ?_⟩
      simp only [sstep, ha, Option.map_some, Option.toList_some]
      refine h.add hg' ha' ?_ (fun h => by cases h)
      simp only [List.modify_eq_set, List.getElem?_eq_getElem hi]
      exact hr'

theorem runs_ok (hB : 0 < B) : ∀ (cs : List (Cmd T)) (w : Mem T × List Impl) (vs : List (Ver T)), Inv B w vs → AllowedAll B (maxDepth B) vs cs →
    ∃ w', runs B w cs = some w' ∧ Inv B w' (cs.foldl sstep vs)
  | [], w, vs, h, _ => ⟨w, rfl, h⟩
  | c :: cs, w, vs, h, hc => by
      obtain ⟨w1, he, h1⟩ := step_ok hB h hc.1
      obtain ⟨w2, he2, h2⟩ := runs_ok hB cs w1 _ h1 hc.2
      exact ⟨w2, by simp [runs, he, he2], h2⟩

/-- **C51** (part): a program keeping the terms runs without undefined behaviour, and all versions it has made, old and new, have the size and the elements they
should.  Missing: `push_back` after `update` on vectors with more than `2^(3B)` elements, see `C51_fails`. -/
theorem C51_seq_partial (hB : 0 < B) (cs : List (Cmd T)) (hc : AllowedAll B (maxDepth B) [⟨[], true⟩] cs) :
    ∃ m vs, runs B start cs = some (m, vs) ∧ vs.length = (sruns cs).length ∧
      ∀ (v : Nat) (s : Impl) (a : Ver T), vs[v]? = some s → (sruns cs)[v]? = some a → s.size = a.val.length ∧ ∀ i, i < a.val.length → get B s i m = a.val[i]? := by
  obtain ⟨w, he, h⟩ := runs_ok hB cs _ _ (inv_start (B := B)) hc
  refine ⟨w.1, w.2, he, h.len, fun v s a hs ha => ⟨(h.rep v s a hs ha).size, fun i hi => ?_⟩⟩
  rw [get_ok hB (h.rep v s a hs ha) hi, List.getElem?_eq_getElem hi]

/-- push the elements of a list, one after the other -/
def pushAll (xs : List T) (v : Nat) : List (Cmd T) :=
  match xs with
  | [] => []
  | x :: xs => .push v x :: pushAll xs (v + 1)

omit [Inhabited T] in
theorem pushAll_spec (M : Nat) : ∀ (xs l : List T) (vs : List (Ver T)), vs.getLast? = some ⟨l, true⟩ → l.length + xs.length ≤ 2 ^ (M * B) →
    AllowedAll B M vs (pushAll xs (vs.length - 1)) ∧ ((pushAll xs (vs.length - 1)).foldl sstep vs).getLast? = some ⟨l ++ xs, true⟩ ∧
      ((pushAll xs (vs.length - 1)).foldl sstep vs).length = vs.length + xs.length
  | [], l, vs, h, _ => by simp [pushAll, AllowedAll, h]
  | x :: xs, l, vs, h, hM => by
      have hlast : vs[vs.length - 1]? = some ⟨l, true⟩ := by rw [← List.getLast?_eq_getElem?]; exact h
      have hstep : sstep vs (.push (vs.length - 1) x) = vs ++ [⟨l ++ [x], true⟩] := by simp [sstep, hlast]
      simp only [List.length_cons] at hM
      obtain ⟨h1, h2, h3⟩ := pushAll_spec M xs (l ++ [x]) (vs ++ [⟨l ++ [x], true⟩]) (by simp) (by simp; omega)
      have hpos : 0 < vs.length := by
        rcases Nat.eq_zero_or_pos vs.length with h0 | h0
        · rw [List.length_eq_zero_iff.1 h0] at h; simp at h
        · exact h0
      rw [show (vs ++ [(⟨l ++ [x], true⟩ : Ver T)]).length - 1 = vs.length - 1 + 1 by simp; omega] at h1 h2 h3
      refine ⟨⟨⟨_, hlast, by simp only; omega, .inr rfl⟩, by rw [hstep]; exact h1⟩, ?_, ?_⟩
      · simp only [pushAll, List.foldl_cons, hstep, h2]; simp
      · simp only [pushAll, List.foldl_cons, hstep, h3]; simp; omega

/-- the program that loses elements: fill four levels by one leaf, update the first element, push another one -/
def loser (B : Nat) (xs : List T) (f : T → T) (x : T) : List (Cmd T) :=
  pushAll xs 0 ++ [.update xs.length 0 f, .push (xs.length + 1) x]

theorem runs_append (w : Mem T × List Impl) : ∀ (cs ds : List (Cmd T)), runs B w (cs ++ ds) = (runs B w cs).bind fun w => runs B w ds
  | [], _ => rfl
  | c :: cs, ds => by
      simp only [List.cons_append, runs]
      cases step B w c with
      | none => rfl
      | some w1 => exact runs_append w1 cs ds

/-- **C51 fails** for all numbers of bits (with room for four levels): pushing `2^(3B) + 2^B` elements, updating the first one and pushing another one gives a
vector of the right size in which getting the element at `2^(3B)` is undefined behaviour. -/
theorem C51_fails (hB : 0 < B) (h4 : 4 * B ≤ 63) (xs : List T) (hx : xs.length = 2 ^ (3 * B) + 2 ^ B) (f : T → T) (x : T) :
    ∃ m vs s, runs B start (loser B xs f x) = some (m, vs) ∧ vs[xs.length + 2]? = some s ∧ s.size = xs.length + 1 ∧ 2 ^ (3 * B) < s.size ∧
      get B s (2 ^ (3 * B)) m = none := by
  have h2B : 2 ≤ 2 ^ B := by
    have := Nat.pow_le_pow_right (show 0 < 2 by omega) hB
    simpa using this
  have hM : 4 ≤ maxDepth B := (Nat.le_div_iff_mul_le hB).2 h4
  have hroom : xs.length ≤ 2 ^ (maxDepth B * B) := by
    have h1 : 2 ^ (4 * B) ≤ 2 ^ (maxDepth B * B) := Nat.pow_le_pow_right (by omega) (Nat.mul_le_mul_right B hM)
    have h2 : 2 ^ (4 * B) = 2 ^ (3 * B) * 2 ^ B := by rw [← Nat.pow_add]; congr 1; omega
    have h3 := Nat.mul_le_mul_left (2 ^ (3 * B)) h2B
    have h4 : 2 ^ B ≤ 2 ^ (3 * B) := Nat.pow_le_pow_right (by omega) (by omega)
    omega
  obtain ⟨h1, h2, h3⟩ := pushAll_spec (B := B) (maxDepth B) xs [] [⟨[], true⟩] rfl (by simpa using hroom)
  rw [show [(⟨[], true⟩ : Ver T)].length - 1 = 0 from rfl] at h1 h2 h3
  obtain ⟨w, he, hinv⟩ := runs_ok hB _ _ _ (inv_start (B := B)) h1
  generalize hvs : List.foldl sstep [⟨[], true⟩] (pushAll xs 0) = vs at h2 h3 hinv
  simp only [List.length_singleton] at h3
  have hlast : vs[xs.length]? = some ⟨xs, true⟩ := by
    rw [List.getLast?_eq_getElem?, h3, show 1 + xs.length - 1 = xs.length by omega] at h2
    simpa using h2
  obtain ⟨s, hs⟩ := hinv.ver hlast
  have hr := hinv.rep _ _ _ hs hlast
  obtain ⟨m1, s1, he1, hg1, ha1, hr1⟩ := update_ok hB hinv.good hr (i := 0) (by show 0 < ([] ++ xs).length; rw [List.nil_append, hx]; exact Nat.add_pos_left (Nat.two_pow_pos _) _) f
  have hf1 : s1.focus = 0 := by
    simp only [update, gotoWritable, Option.bind_eq_some_iff, Option.map_eq_some_iff, Prod.exists] at he1
    obtain ⟨m2, s2, h5, xs', _, v, _, m3, _, h6⟩ := he1
    cases h6
    split at h5
    · simp only [Option.map_eq_some_iff] at h5
      obtain ⟨_, _, h5⟩ := h5
      cases h5; rfl
    · simp only [Option.map_eq_some_iff] at h5
      obtain ⟨_, _, h5⟩ := h5
      cases h5; rfl
  obtain ⟨m2, s2, he2, hsz2, hget⟩ := push_loses hB hg1 hr1 (by simpa using hx) (by rw [hf1]; exact Nat.two_pow_pos _) x
  have hlen : w.2.length = xs.length + 1 := by rw [hinv.len, h3]; omega
  have hs1 : (w.2 ++ [s1])[xs.length + 1]? = some s1 := by rw [← hlen]; simp
  refine ⟨m2, w.2 ++ [s1] ++ [s2], s2, ?_, ?_, by simpa using hsz2, ?_, hget⟩
  · rw [loser, runs_append, he]
    simp only [Option.bind_some, runs, step, hs, he1, Option.map_some, hs1, he2]
  · rw [show xs.length + 2 = (w.2 ++ [s1]).length by simp [hlen]]
    simp
  · rw [hsz2]; simp only [List.length_set]; omega

/-! ## Iterators -/

omit [Inhabited T] in
/-- dereference and increment `n` times -/
def collect (B : Nat) (m : Mem T) : Nat → Iter → Option (List T × Iter)
  | 0, it => some ([], it)
  | n + 1, it => (deref m it).bind fun x => (incr B m it).bind fun it => (collect B m n it).map fun (xs, it) => (x :: xs, it)

omit [Inhabited T] in
theorem collect_ok (hB : 0 < B) {m : Mem T} {l : List T} {g : Nat → Option T} : ∀ (n i : Nat) (it : Iter), At B m it l g i →
    (i < l.length → i < it.base + 2 ^ B) → i + n ≤ l.length → (i + n < l.length ∨ l.length % 2 ^ B ≠ 0) →
    ∃ it', collect B m n it = some ((l.drop i).take n, it') ∧ At B m it' l g (i + n) ∧ (i + n < l.length → i + n < it'.base + 2 ^ B)
  | 0, i, it, h, hb, _, _ => ⟨it, by simp [collect], h, hb⟩
  | n + 1, i, it, h, hb, hn, hc => by
      have hi : i < l.length := by omega
      obtain ⟨it1, he1, h1, hb1⟩ := incr_ok hB h (hb hi) hi (by omega)
      obtain ⟨it2, he2, h2, hb2⟩ := collect_ok hB n (i + 1) it1 h1 hb1 (by omega) (by omega)
      refine ⟨it2, ?_, by rwa [show i + (n + 1) = i + 1 + n by omega], by rwa [show i + (n + 1) = i + 1 + n by omega]⟩
      simp only [collect, deref_ok h hi (hb hi), Option.bind_some, he1, he2, Option.map_some]
      rw [List.drop_eq_getElem_cons hi, List.take_succ_cons]

/-- **C52** (part): the iterators of a vector that is not empty.  `begin` and `end` can be made, and leave the elements of all versions as they are; dereferencing gives the element at the position; stepping forward visits the elements in order and, if the size is not a multiple of
`2^B`, ends at `end`; stepping back and jumping go to the position they should.  Missing: the empty vector and stepping to the end if the size is a multiple of `2^B`, see
`C52_end_fails` and `C52_empty_fails`. -/
theorem C52_iter_partial (hB : 0 < B) (cs : List (Cmd T)) (hc : AllowedAll B (maxDepth B) [⟨[], true⟩] cs) {m : Mem T} {vs : List Impl} (hw : runs B start cs = some (m, vs))
    {v : Nat} {s : Impl} {a : Ver T} (hs : vs[v]? = some s) (ha : (sruns cs)[v]? = some a) (hne : a.val ≠ []) (h63 : a.val.length < 2 ^ 63) (hB6 : B < 63) :
    ∃ m1 b m2 e, begin B s m = some (m1, b) ∧ fin B s m1 = some (m2, e) ∧ b.i = 0 ∧ e.i = a.val.length ∧
      (∀ (v' : Nat) (s' : Impl) (a' : Ver T), vs[v']? = some s' → (sruns cs)[v']? = some a' → ∀ i, i < a'.val.length → get B s' i m2 = a'.val[i]?) ∧
      (∀ n, n ≤ a.val.length → (n < a.val.length ∨ a.val.length % 2 ^ B ≠ 0) → ∃ it, collect B m2 n b = some (a.val.take n, it) ∧ it.i = n) ∧
      (∀ n, n < a.val.length → ∃ it it', advance B m2 b n = some it ∧ deref m2 it = a.val[n]? ∧ advance B m2 e n = some it' ∧ deref m2 it' = a.val[n]? ∧
        (0 < n → ∃ it'', decr B m2 it = some it'' ∧ deref m2 it'' = a.val[n - 1]?)) ∧
      (∃ it, decr B m2 e = some it ∧ deref m2 it = a.val.getLast?) := by
  obtain ⟨w, hw', h⟩ := runs_ok hB cs _ _ (inv_start (B := B)) hc
  rw [hw] at hw'
  cases hw'
  have hr := h.rep v s a hs ha
  have hpos : 0 < a.val.length := List.length_pos_iff.2 hne
  have h2B := Nat.two_pow_pos B
  obtain ⟨m1, b, g, he, hg1, ha1, hb⟩ := begin_ok hB h.good hr hne
  obtain ⟨m2, e, g2, he2, hg2, ha2, hend⟩ := fin_ok hB hg1 (hr.agree h.good ha1) hne (by omega)
  have hb2 := hb.agree hg2 ha2
  refine ⟨m1, b, m2, e, he, he2, hb.pos, hend.pos, fun v' s' a' hs' ha' i hi => (by
    rw [get_ok hB (((h.rep v' s' a' hs' ha').agree h.good ha1).agree hg1 ha2) hi, List.getElem?_eq_getElem hi]), fun n hn hc => ?_, fun n hn => ?_, ?_⟩
  · obtain ⟨it, hc, hat, _⟩ := collect_ok hB n 0 b hb2 (fun _ => by omega) (by omega) (by omega)
    exact ⟨it, by simpa using hc, by simpa using hat.pos⟩
  · obtain ⟨it, hi1, hat1, hl1⟩ := advance_ok hB hb2 (.inl hn) h63 hB6
    obtain ⟨it', hi2, hat2, hl2⟩ := advance_ok hB hend (.inl hn) h63 hB6
    refine ⟨it, it', hi1, by rw [deref_ok hat1 hn (hl1 hn), List.getElem?_eq_getElem hn], hi2, by rw [deref_ok hat2 hn (hl2 hn), List.getElem?_eq_getElem hn], fun h0 => ?_⟩
    obtain ⟨k, rfl⟩ : ∃ k, n = k + 1 := ⟨n - 1, by omega⟩
    obtain ⟨it'', hi3, hat3, hl3⟩ := decr_ok hB hat1
    exact ⟨it'', hi3, by rw [deref_ok hat3 (by omega) hl3, Nat.add_sub_cancel, List.getElem?_eq_getElem (by omega)]⟩
  · obtain ⟨k, hk⟩ : ∃ k, a.val.length = k + 1 := ⟨a.val.length - 1, by omega⟩
    rw [hk] at hend
    obtain ⟨it, hi, hat, hl⟩ := decr_ok hB hend
    have e : a.val.length - 1 = k := by omega
    exact ⟨it, hi, by rw [deref_ok hat (by omega) hl, List.getLast?_eq_getElem?, e, List.getElem?_eq_getElem (by omega)]⟩

/-- **C52 fails**: for every vector whose size is a multiple of `2^B` and not 0, a loop over the elements has undefined behaviour when it moves on from
the last one. -/
theorem C52_end_fails (hB : 0 < B) (cs : List (Cmd T)) (hc : AllowedAll B (maxDepth B) [⟨[], true⟩] cs) {m : Mem T} {vs : List Impl} (hw : runs B start cs = some (m, vs))
    {v : Nat} {s : Impl} {a : Ver T} (hs : vs[v]? = some s) (ha : (sruns cs)[v]? = some a) (hne : a.val ≠ []) (hm : a.val.length % 2 ^ B = 0) :
    ∃ m' b, begin B s m = some (m', b) ∧ collect B m' a.val.length b = none := by
  obtain ⟨w, hw', h⟩ := runs_ok hB cs _ _ (inv_start (B := B)) hc
  rw [hw] at hw'
  cases hw'
  have hr := h.rep v s a hs ha
  have hpos : 0 < a.val.length := List.length_pos_iff.2 hne
  have h2B := Nat.two_pow_pos B
  obtain ⟨m1, b, g, he, hg1, ha1, hb⟩ := begin_ok hB h.good hr hne
  refine ⟨m1, b, he, ?_⟩
  have key : ∀ (n i : Nat) (it : Iter), At B m1 it a.val g i → i < it.base + 2 ^ B → i + (n + 1) = a.val.length → collect B m1 (n + 1) it = none := by
    intro n
    induction n with
    | zero =>
        intro i it hat hb hi
        simp only [collect, deref_ok hat (by omega) hb, Option.bind_some, incr_ub hB hat hb hi hm, Option.bind_none]
    | succ n ih =>
        intro i it hat hb hi
        obtain ⟨it1, he1, h1, hb1⟩ := incr_ok hB hat hb (by omega) (.inl (by omega))
        rw [collect]
        simp only [deref_ok hat (by omega) hb, Option.bind_some, he1, ih (i + 1) it1 h1 (hb1 (by omega)) (by omega), Option.map_none]
  obtain ⟨k, hk⟩ : ∃ k, a.val.length = k + 1 := ⟨a.val.length - 1, by omega⟩
  rw [hk]
  exact key k 0 b hb (by omega) (by omega)

omit [Inhabited T] in
/-- **C52 fails**: `begin()` and `end()` of an empty vector have undefined behaviour. -/
theorem C52_empty_fails (m : Mem T) : begin B empty m = none ∧ fin B empty m = none := by
  have key : ∀ (i base : Nat), iterAt B empty i base m = none := fun i base => by
    unfold iterAt gotoPos
    simp only [empty, Bool.false_eq_true, if_false, Option.bind_some]
    cases displayIdx B (base ^^^ 0) <;> simp [gotoPosLoop, leafPos]
  exact ⟨key _ _, key _ _⟩

/-! ## Examples -/

/-- two bits, versions made from old ones, updates and pushes across a leaf -/
def ex : List (Cmd Nat) := pushAll [1, 2, 3, 4, 5] 0 ++ [.update 5 1 (· + 40), .push 6 6, .push 3 9, .update 7 5 (· * 2)]

example : (sruns ex).map (·.val) = [[], [1], [1, 2], [1, 2, 3], [1, 2, 3, 4], [1, 2, 3, 4, 5], [1, 42, 3, 4, 5], [1, 42, 3, 4, 5, 6], [1, 2, 3, 9],
    [1, 42, 3, 4, 5, 12]] := by decide +kernel

/-- the terms are kept: `C51_seq_partial` applies -/
example : AllowedAll 2 (maxDepth 2) [⟨[], true⟩] ex := by
  simp [ex, pushAll, AllowedAll, Allowed, sstep, maxDepth]

/-- and what the versions are -/
example : (runs 2 start ex).map (fun w => w.2.map fun s => (List.range s.size).map fun i => get 2 s i w.1) =
    some ((sruns ex).map fun a => a.val.map some) := by decide +kernel

/-- a loop over the last version, which has 6 elements, and one over a version that has 4, a full leaf -/
example : (runs 2 start ex).bind (fun w => w.2[9]?.bind fun s => (begin 2 s w.1).bind fun (m, b) => (collect 2 m 6 b).map (·.1)) = some [1, 42, 3, 4, 5, 12] ∧
    (runs 2 start ex).bind (fun w => w.2[8]?.bind fun s => (begin 2 s w.1).bind fun (m, b) => (collect 2 m 3 b).map (·.1)) = some [1, 2, 3] ∧
    (runs 2 start ex).bind (fun w => w.2[8]?.bind fun s => (begin 2 s w.1).bind fun (m, b) => (collect 2 m 4 b).map (·.1)) = none := by decide +kernel

/-- the smallest program that loses an element, with one bit: the sizes are right and the eighth element cannot be got -/
example : (runs 1 start (loser 1 (List.range 10) id 10)).map (fun w => w.2[12]?.map fun s => (List.range s.size).map fun i => get 1 s i w.1) =
    some (some [some 0, some 1, some 2, some 3, some 4, some 5, some 6, some 7, none, none, some 10]) := by decide +kernel

/-- `C51_fails` for the default of 5 bits: 32800 elements -/
example (xs : List Nat) (h : xs.length = 32800) : ∃ m vs s, runs 5 start (loser 5 xs id 0) = some (m, vs) ∧ vs[xs.length + 2]? = some s ∧ s.size = xs.length + 1 ∧
    2 ^ (3 * 5) < s.size ∧ get 5 s (2 ^ (3 * 5)) m = none := C51_fails (by decide) (by decide) xs (by rw [h]; rfl) id 0

end Dv
