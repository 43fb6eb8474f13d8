import Verif.Champ.MapInv

/-!
# Property theorems for `immer::map`, `immer::set`, `immer::table` (persistent operations)

C01, C02, C04, C08, C11 (map part), C40.  `run A ops` executes the modelled C++ code on a history,
`Spec.run A ops` is the mathematical map (`Spec.lean`).
-/

namespace Champ

variable {K V T P σ : Type}

/-- the requirements on template arguments of `immer::map` give a lawful `Api` -/
theorem mapApi_lawful {B : Nat} {hash : K → BitVec 64} {eqv : K → K → Bool} {dflt : V} (hB : 0 < B)
    (refl : ∀ a, eqv a a = true) (symm : ∀ a b, eqv a b = true → eqv b a = true)
    (trans : ∀ a b d, eqv a b = true → eqv b d = true → eqv a d = true)
    (hash_eq : ∀ a b, eqv a b = true → hash a = hash b) : (mapApi B hash eqv dflt).Lawful :=
  ⟨⟨hB, refl, symm, trans, hash_eq⟩, fun k _ => refl k⟩

theorem setApi_lawful {B : Nat} {hash : T → BitVec 64} {eqv : T → T → Bool} (hB : 0 < B)
    (refl : ∀ a, eqv a a = true) (symm : ∀ a b, eqv a b = true → eqv b a = true)
    (trans : ∀ a b d, eqv a b = true → eqv b d = true → eqv a d = true)
    (hash_eq : ∀ a b, eqv a b = true → hash a = hash b) : (setApi B hash eqv).Lawful :=
  ⟨⟨hB, refl, symm, trans, hash_eq⟩, fun k _ => refl k⟩

theorem tableApi_lawful {B : Nat} {hash : K → BitVec 64} {eqv : K → K → Bool} {dflt : T}
    {getKey : T → K} {setKey : T → K → T} (hB : 0 < B)
    (refl : ∀ a, eqv a a = true) (symm : ∀ a b, eqv a b = true → eqv b a = true)
    (trans : ∀ a b d, eqv a b = true → eqv b d = true → eqv a d = true)
    (hash_eq : ∀ a b, eqv a b = true → hash a = hash b)
    (hset : ∀ x k, eqv (getKey (setKey x k)) k = true) :
    (tableApi B hash eqv dflt getKey setKey).Lawful :=
  ⟨⟨hB, refl, symm, trans, hash_eq⟩, fun k p => hset p k⟩

/-- **C01.** After any history no undefined behaviour has occurred and every query on every key gives
what the mathematical map prescribes. -/
theorem C01_lookup (A : Api K T P) (hA : A.Lawful) (ops : List (Op K T P)) :
    ∃ m, run A ops = some m ∧ ∀ k,
      m.get k = some (Spec.run A ops k) ∧
      m.count k = some (if (Spec.run A ops k).isSome then 1 else 0) ∧
      m.find A k = some ((Spec.run A ops k).map A.project) ∧
      m.index A k = some (((Spec.run A ops k).map A.project).getD A.dflt) := by
  obtain ⟨m, h1, h2, h3⟩ := run_spec hA ops
  refine ⟨m, h1, fun k => ?_⟩
  have hg : m.get k = some (Spec.run A ops k) := by rw [Map.get_look hA h2, h3]
  refine ⟨hg, ?_, ?_, ?_⟩
  · rw [Map.count, hg]; cases Spec.run A ops k <;> rfl
  · rw [Map.find, hg]; rfl
  · rw [Map.index, hg]; cases Spec.run A ops k <;> rfl

/-- **C02.** `size()` is the number of distinct keys present: there is a list of pairwise
different keys, containing (up to key equality) exactly the keys present, whose length is the size. -/
theorem C02_size (A : Api K T P) (hA : A.Lawful) (ops : List (Op K T P)) :
    ∃ m, run A ops = some m ∧ ∃ keys : List K,
      keys.Pairwise (fun a b => A.cfg.eqv a b = false) ∧
      (∀ k, (Spec.run A ops k).isSome = true ↔ ∃ k' ∈ keys, A.cfg.eqv k' k = true) ∧
      m.size = keys.length := by
  obtain ⟨m, h1, h2, h3⟩ := run_spec hA ops
  refine ⟨m, h1, m.els.map A.cfg.key, ?_, ?_, ?_⟩
  · rw [List.pairwise_map]; exact h2.pairwise hA.cfg
  · intro k
    rw [← h3, look, List.find?_isSome]
    simp
  · rw [h2.size, List.length_map]

/-- **C04.** The hash function is unobservable: two containers that differ only in their (lawful)
hash functions and branching factor answer every query alike after the same history and have the
same size.  In particular a constant hash behaves like a perfect one. -/
theorem C04_hash_independent (A A' : Api K T P) (hA : A.Lawful) (hA' : A'.Lawful)
    (hkey : A'.cfg.key = A.cfg.key) (heqv : A'.cfg.eqv = A.cfg.eqv) (hproj : A'.project = A.project)
    (hdflt : A'.dflt = A.dflt) (hcomb : A'.combine = A.combine) (ops : List (Op K T P)) :
    ∃ m m', run A ops = some m ∧ run A' ops = some m' ∧ m.size = m'.size ∧
      ∀ k, m.get k = m'.get k ∧ (m.get k).isSome := by
  obtain ⟨m, h1, h2, h3⟩ := run_spec hA ops
  obtain ⟨m', h1', h2', h3'⟩ := run_spec hA' ops
  have hspec : Spec.run A' ops = Spec.run A ops := by
    unfold Spec.run
    congr 1
    funext f op
    have hi : Spec.insert A' f = Spec.insert A f := by
      funext v k; simp only [Spec.insert, hkey, heqv]
    have he : Spec.erase A' f = Spec.erase A f := by
      funext k0 k; simp only [Spec.erase, heqv]
    cases op <;> simp only [Spec.step, hi, he, hproj, hdflt, hcomb]
  have hl : look A.cfg m'.els = look A.cfg m.els := by
    rw [h3, ← hspec, ← h3']
    unfold look; rw [hkey, heqv]
  refine ⟨m, m', h1, h1', ?_, ?_⟩
  · rw [h2.size, h2'.size]
    have hp := h2.pairwise hA.cfg
    have hp' := h2'.pairwise hA'.cfg
    rw [hkey, heqv] at hp'
    exact length_eq_of_look hA.cfg hp hp' hl.symm
  · intro k
    rw [Map.get_look hA h2, Map.get_look hA' h2', h3, h3', hspec]
    exact ⟨rfl, rfl⟩

/-- **C08.** Constructing from a range is inserting the elements one by one. -/
theorem C08_from_range (A : Api K T P) (hA : A.Lawful) (xs : List T) :
    ∃ m, (Map.fromRange xs : Option (Map A.cfg)) = some m ∧
      run A (xs.map .insert) = some m ∧
      ∀ k, m.get k = some (xs.reverse.find? (fun x => A.cfg.eqv (A.cfg.key x) k)) := by
  obtain ⟨m, h1, h2, h3⟩ := run_spec hA (xs.map Op.insert)
  have he : (Map.fromRange xs : Option (Map A.cfg)) = run A (xs.map .insert) := by
    unfold Map.fromRange run
    rw [List.foldlM_map]
    rfl
  refine ⟨m, he.trans h1, h1, fun k => ?_⟩
  rw [Map.get_look hA h2, h3]
  congr 1
  clear h1 h2 h3 he
  unfold Spec.run
  have gen : ∀ (ys : List T) (f : K → Option T), ((ys.map (Op.insert (P := P))).foldl (Spec.step A) f) k =
      (ys.reverse.find? (fun x => A.cfg.eqv (A.cfg.key x) k)).or (f k) := by
    intro ys
    induction ys with
    | nil => intro f; simp
    | cons y ys ih =>
      intro f
      rw [List.map_cons, List.foldl_cons, ih, List.reverse_cons, List.find?_append]
      simp only [Spec.step, Spec.insert, List.find?_cons, List.find?_nil]
      cases ys.reverse.find? (fun x => A.cfg.eqv (A.cfg.key x) k) with
      | some z => simp
      | none => cases A.cfg.eqv (A.cfg.key y) k <;> simp
  rw [gen]; simp [Spec.empty]

/-- **C11 (map/table part).** `at(k)` throws exactly when the key is absent, and otherwise gives its value. -/
theorem C11_map_at (A : Api K T P) (hA : A.Lawful) (ops : List (Op K T P)) :
    ∃ m, run A ops = some m ∧ ∀ k,
      (m.at A k = some .outOfRange ↔ m.count k = some 0) ∧
      (∀ p, m.at A k = some (.value p) ↔ ∃ x, Spec.run A ops k = some x ∧ A.project x = p) ∧
      (m.at A k).isSome := by
  obtain ⟨m, h1, h2, h3⟩ := run_spec hA ops
  refine ⟨m, h1, fun k => ?_⟩
  have hg : m.get k = some (Spec.run A ops k) := by rw [Map.get_look hA h2, h3]
  simp only [Map.at, Map.count, hg]
  cases Spec.run A ops k <;> simp

/-- **C40, update.** On any reachable container, `update(k, f)` calls `f` exactly once (the log of
arguments grows by one), with the current value of `k` or the default, and afterwards `k` maps to the
combination of `k` and the result, every other key being untouched. -/
theorem C40_update (A : Api K T P) (hA : A.Lawful) (ops : List (Op K T P)) (k : K) (f : P → P)
    (log : List P) :
    ∃ m m', run A ops = some m ∧
      m.update (A.logged f) k log =
        some (m', log ++ [((Spec.run A ops k).map A.project).getD A.dflt]) ∧
      m'.get k = some (some (A.combine k (f (((Spec.run A ops k).map A.project).getD A.dflt)))) ∧
      ∀ k', A.cfg.eqv k k' = false → m'.get k' = m.get k' ∧ (m.get k').isSome := by
  obtain ⟨m, h1, h2, h3⟩ := run_spec hA ops
  have hc := hA.cfg
  set u : Upd K T P (List P) := A.logged f with hu
  have h4 := m.update_spec hc u (k := k) (fun y => hA.combine_key k y) h2 log
  have hl : m.els.find? (fun x => A.cfg.eqv (A.cfg.key x) k) = Spec.run A ops k := by rw [← h3]; rfl
  have he : (Spec.run A ops k).elim u.dflt u.project = ((Spec.run A ops k).map A.project).getD A.dflt := by
    cases Spec.run A ops k <;> rfl
  rw [hl, he] at h4
  set old := ((Spec.run A ops k).map A.project).getD A.dflt
  obtain ⟨m', h5, h6, h7⟩ := m.add_spec hc h2 (A.combine k (f old))
  have hlook := look_perm hc (h6.pairwise hc) h7
  refine ⟨m, m', h1, ?_, ?_, ?_⟩
  · rw [h4]; show Option.map _ (m.add (A.combine k (f old))) = _
    rw [h5]; rfl
  · rw [Map.get_look hA h6, hlook, look_cons_without hc, hA.combine_key k]; rfl
  · intro k' hk'
    rw [Map.get_look hA h6, Map.get_look hA h2, hlook, look_cons_without hc]
    have : A.cfg.eqv (A.cfg.key (A.combine k (f old))) k' = false := by
      by_contra hne
      have he : A.cfg.eqv (A.cfg.key (A.combine k (f old))) k' = true := by simpa using hne
      rw [hc.trans _ _ _ (hc.symm _ _ (hA.combine_key k _)) he] at hk'; cases hk'
    rw [this]; exact ⟨rfl, rfl⟩

/-- **C40, update_if_exists.** `f` is called once if the key is present and not at all otherwise, in
which case the very same container is returned. -/
theorem C40_update_if_exists (A : Api K T P) (hA : A.Lawful) (ops : List (Op K T P)) (k : K)
    (f : P → P) (log : List P) :
    ∃ m m', run A ops = some m ∧
      m.updateIfExists (A.logged f) k log =
        some (m', log ++ ((Spec.run A ops k).map A.project).toList) ∧
      (Spec.run A ops k = none → m' = m) ∧
      m'.get k = some ((Spec.run A ops k).map (fun x => A.combine k (f (A.project x)))) ∧
      ∀ k', A.cfg.eqv k k' = false → m'.get k' = m.get k' ∧ (m.get k').isSome := by
  obtain ⟨m, h1, h2, h3⟩ := run_spec hA ops
  have hc := hA.cfg
  set u : Upd K T P (List P) := A.logged f with hu
  have h4 := m.updateIfExists_spec hc u (k := k) (fun y => hA.combine_key k y) h2 log
  have hl : m.els.find? (fun x => A.cfg.eqv (A.cfg.key x) k) = Spec.run A ops k := by rw [← h3]; rfl
  rw [hl] at h4
  cases hs : Spec.run A ops k with
  | none =>
    rw [hs] at h4
    refine ⟨m, m, h1, by rw [h4]; simp, fun _ => rfl, ?_, ?_⟩
    · rw [Map.get_look hA h2, h3, hs]; rfl
    · intro k' _
      refine ⟨rfl, ?_⟩
      rw [Map.get_look hA h2]; rfl
  | some x =>
    rw [hs] at h4
    obtain ⟨m', h5, h6, h7⟩ := m.add_spec hc h2 (A.combine k (f (A.project x)))
    have hlook := look_perm hc (h6.pairwise hc) h7
    refine ⟨m, m', h1, ?_, by simp, ?_, ?_⟩
    · rw [h4]; show Option.map _ (m.add (A.combine k (f (A.project x)))) = _
      rw [h5]; rfl
    · rw [Map.get_look hA h6, hlook, look_cons_without hc, hA.combine_key k]; rfl
    · intro k' hk'
      rw [Map.get_look hA h6, Map.get_look hA h2, hlook, look_cons_without hc]
      have : A.cfg.eqv (A.cfg.key (A.combine k (f (A.project x)))) k' = false := by
        by_contra hne
        have he : A.cfg.eqv (A.cfg.key (A.combine k (f (A.project x)))) k' = true := by simpa using hne
        rw [hc.trans _ _ _ (hc.symm _ _ (hA.combine_key k _)) he] at hk'; cases hk'
      rw [this]; exact ⟨rfl, rfl⟩

/-! ## concrete instances of the hypotheses -/

/-- a map from numbers to numbers, keys equal modulo 10, hashed by their last digit modulo 3 (so
there are full collisions), `B = 2` -/
def exApi : Api Nat (Nat × Nat) Nat :=
  mapApi 2 (fun n => BitVec.ofNat 64 (n % 10 % 3)) (fun a b => a % 10 == b % 10) 7

theorem exApi_lawful : exApi.Lawful := by
  apply mapApi_lawful (by decide)
  · simp
  · intro a b h; simpa using (by simpa using h : a % 10 = b % 10).symm
  · intro a b d h1 h2; simp at h1 h2 ⊢; omega
  · intro a b h; simp at h; simp [h]

def exOps : List (Op Nat (Nat × Nat) Nat) :=
  [.insert (1, 10), .insert (4, 40), .insert (7, 70), .erase 4, .update 11 (· + 1),
   .updateIfExists 5 (· + 1), .update 2 (· + 1), .insert (27, 0)]

example : ∃ m, run exApi exOps = some m := (C01_lookup exApi exApi_lawful exOps).imp fun _ h => h.1

example : [1, 2, 4, 5, 7].map (Spec.run exApi exOps) =
    [some (11, 11), some (2, 8), none, none, some (27, 0)] := by decide

/-- the executable model really computes the same -/
example : (do let m ← run exApi exOps; [1, 2, 4, 5, 7].mapM (fun k => m.get k)) =
    some [some (11, 11), some (2, 8), none, none, some (27, 0)] := by decide +kernel

example : (run exApi exOps).map (·.size) = some 3 := by decide +kernel

end Champ
