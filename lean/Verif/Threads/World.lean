import Verif.Threads.Order
import Verif.Threads.Ops
import Verif.VecHeap.Progs

/-!
# All threads together
-/

namespace Thr
open Mm Rrb VecHeap
open Thr.Prog (ret undef)
open Spec (Cmd Ev)

variable {T : Type} {c : Cfg} {er et n : Nat} {G : Refs T}

/-- a vector, the tree in memory, and its elements -/
structure Item (T : Type) where
  v : Vc
  t : Tree T
  l : List T

def Item.refs (z : Item T) : Refs T := VecHeap.refs z.v z.t 0

def Item.Ok (c : Cfg) (z : Item T) : Prop := Is z.v z.t ∧ Vec.Inv c z.t z.l

def allRefs (zs : List (Item T)) : Refs T := zs.flatMap Item.refs

/-- at the end of a command -/
def Goal (c : Cfg) (x : Cmd T) (ls : List (List T)) (O : List Nat) (L : Refs T) (_ : Mem Dat T) (r : List Vc × Option T) : Prop :=
  O = [] ∧ ∃ zs : List (Item T), (∀ z ∈ zs, z.Ok c) ∧ L = allRefs zs ∧ r.1 = zs.map Item.v ∧ x.run ls = some (zs.map Item.l, r.2)

theorem goal_of {x : Cmd T} {ls ls' : List (List T)} {zs : List (Item T)} {hs : List Vc} {r : Option T} {L : Refs T} {m : Mem Dat T} (hp : L.Perm (allRefs zs)) (hok : ∀ z ∈ zs, z.Ok c) (hh : hs = zs.map Item.v)
    (hl : ls' = zs.map Item.l) (hr : x.run ls = some (ls', r)) : TSafe c G (ret (hs, r)) [] L m (Goal c x ls) :=
  safe_perm (.refl _) hp (safe_ret fun _ _ => ⟨rfl, zs, hok, rfl, hh, hl ▸ hr⟩)

theorem perm_erase {zs : List (Item T)} {i : Nat} {z : Item T} (h : zs[i]? = some z) : (allRefs zs).Perm (z.refs ++ allRefs (zs.eraseIdx i)) := by
  induction zs generalizing i with
  | nil => simp at h
  | cons y zs ih =>
    cases i with
    | zero =>
      simp only [List.getElem?_cons_zero, Option.some.injEq] at h
      subst h
      exact .refl _
    | succ i =>
      simp only [List.getElem?_cons_succ] at h
      have h1 := ih h
      show (y.refs ++ allRefs zs).Perm (z.refs ++ (y.refs ++ allRefs (zs.eraseIdx i)))
      refine (h1.append_left _).trans ?_
      rw [← List.append_assoc, ← List.append_assoc]
      exact List.perm_append_comm.append_right _

theorem perm_set {zs : List (Item T)} {i : Nat} {z y : Item T} (h : zs[i]? = some z) : (y.refs ++ allRefs (zs.eraseIdx i)).Perm (allRefs (zs.set i y)) := by
  have hi : i < zs.length := (List.getElem?_eq_some_iff.mp h).1
  have h1 := perm_erase (zs := zs.set i y) (i := i) (z := y) (by rw [List.getElem?_set_self hi])
  rw [List.eraseIdx_set_eq] at h1
  exact h1.symm

theorem perm_snoc (zs : List (Item T)) (y : Item T) : (y.refs ++ allRefs zs).Perm (allRefs (zs ++ [y])) := by
  unfold allRefs
  rw [List.flatMap_append]
  simp only [List.flatMap_cons, List.flatMap_nil, List.append_nil]
  exact List.perm_append_comm

theorem size_of {t : Tree T} {l : List T} (h : Vec.Inv c t l) : t.size = l.length := by
  obtain ⟨_, _, _, h, _⟩ := h
  exact h

theorem modify_set {l : List T} {k : Nat} (hk : k < l.length) (f : T → T) : l.modify k f = l.set k (f l[k]) := by
  refine List.ext_getElem? fun j => ?_
  rw [List.getElem?_modify, List.getElem?_set]
  by_cases h : k = j
  · subst h; simp [hk]
  · simp [h]

/-- the code of a command -/
theorem code_safe (hB : 0 < c.B) (hs : Statics er et G) {x : Cmd T} {zs : List (Item T)} (hok : ∀ z ∈ zs, z.Ok c) (ha : Allowed c x (zs.map Item.v)) (m : Mem Dat T) :
    TSafe c G (code c er et x (zs.map Item.v)) [] (allRefs zs) m (Goal c x (zs.map Item.l)) := by
  have hget : ∀ {i : Nat}, i < (zs.map Item.v).length → ∃ z, zs[i]? = some z ∧ z ∈ zs := by
    intro i hi
    rw [List.length_map] at hi
    exact ⟨zs[i], List.getElem?_eq_getElem hi, List.getElem_mem hi⟩
  have hget' : ∀ {i : Nat} {v : Vc}, (zs.map Item.v)[i]? = some v → ∃ z, zs[i]? = some z ∧ z ∈ zs ∧ z.v = v := by
    intro i v hv
    rw [List.getElem?_map] at hv
    obtain ⟨z, hz, rfl⟩ := Option.map_eq_some_iff.mp hv
    exact ⟨z, hz, List.mem_of_getElem? hz, rfl⟩
  have hv : ∀ {i : Nat} {z : Item T}, zs[i]? = some z → (zs.map Item.v)[i]? = some z.v := fun h => by rw [List.getElem?_map, h]; rfl
  have hl : ∀ {i : Nat} {z : Item T}, zs[i]? = some z → (zs.map Item.l)[i]? = some z.l := fun h => by rw [List.getElem?_map, h]; rfl
  have hmem : ∀ {z : Item T}, z ∈ zs → ∀ r ∈ VecHeap.refs z.v z.t 0, r ∈ allRefs zs ++ G := fun hz r hr => List.mem_append_left _ (List.mem_flatMap.mpr ⟨_, hz, hr⟩)
  have hoks : ∀ {y : Item T}, y.Ok c → ∀ z ∈ zs ++ [y], z.Ok c := by
    intro y hy z hz
    rcases List.mem_append.mp hz with hz | hz
    · exact hok z hz
    · rw [List.mem_singleton] at hz; subst hz; exact hy
  have hokt : ∀ {y : Item T} {i : Nat}, y.Ok c → ∀ z ∈ zs.set i y, z.Ok c := by
    intro y i hy z hz
    rcases List.mem_or_eq_of_mem_set hz with hz | rfl
    · exact hok z hz
    · exact hy
  cases x with
  | make =>
    refine empty_safe hs fun m' v hv' hk => ?_
    exact goal_of (zs := zs ++ [Item.mk v (Vec.empty c) []]) (perm_snoc zs ⟨v, Vec.empty c, []⟩) (hoks ⟨hv', Vec.inv_empty⟩) (by simp) (by simp) rfl
  | copy i =>
    obtain ⟨z, hz, hzm⟩ := hget ha
    simp only [code, hv hz]
    refine share_safe (hmem hzm) fun m' hk => ?_
    exact goal_of (zs := zs ++ [z]) (perm_snoc zs z) (hoks (hok z hzm)) (by simp) (by simp; rfl) (by simp [Cmd.run, hz])
  | drop i =>
    obtain ⟨z, hz, hzm⟩ := hget ha
    simp only [code, hv hz]
    refine safe_perm (.refl _) (perm_erase hz) (drop_safe hB (hok z hzm).1 (hok z hzm).2 fun m' hk => ?_)
    exact goal_of (zs := zs.eraseIdx i) (.refl _) (fun y hy => hok y (List.mem_of_mem_eraseIdx hy)) (by rw [List.eraseIdx_map]) rfl (by simp [Cmd.run, hz, List.eraseIdx_map])
  | get i k =>
    obtain ⟨v, hv', hk, hf⟩ := ha
    obtain ⟨z, hz, hzm, rfl⟩ := hget' hv'
    simp only [code, hv']
    have hlen : z.v.size = z.l.length := by rw [(hok z hzm).1.size, size_of (hok z hzm).2]
    rw [hlen] at hk hf
    refine get_safe hB (hok z hzm).1 (hok z hzm).2 hf (List.getElem?_eq_getElem hk) (hmem hzm) fun m' hk' => ?_
    exact goal_of (zs := zs) (.refl _) hok rfl rfl (by simp [Cmd.run, hz, hk])
  | push i x =>
    obtain ⟨z, hz, hzm⟩ := hget ha
    simp only [code, hv hz]
    obtain ⟨t', h1, h2⟩ := Vec.pushBack_spec hB (hok z hzm).2 x
    refine pushBack_safe hB (hok z hzm).1 (hok z hzm).2 h1 (hmem hzm) fun m' v hv' hk => ?_
    exact goal_of (zs := zs ++ [Item.mk v t' (z.l ++ [x])]) (perm_snoc zs ⟨v, t', z.l ++ [x]⟩) (hoks ⟨hv', h2⟩) (by simp) (by simp; rfl) (by simp [Cmd.run, hz])
  | pushIn i x =>
    obtain ⟨z, hz, hzm⟩ := hget ha
    simp only [code, hv hz]
    obtain ⟨t', h1, h2⟩ := Vec.pushBack_spec hB (hok z hzm).2 x
    refine safe_perm (.refl _) (perm_erase hz) (pushBackMut_safe hB (hok z hzm).1 (hok z hzm).2 h1 fun m' v hv' hk => ?_)
    exact goal_of (zs := zs.set i ⟨v, t', z.l ++ [x]⟩) (perm_set (y := ⟨v, t', z.l ++ [x]⟩) hz) (hokt ⟨hv', h2⟩) (by rw [List.map_set]) rfl (by simp [Cmd.run, hz, List.map_set])
  | update i k f =>
    obtain ⟨v, hv', hk⟩ := ha
    obtain ⟨z, hz, hzm, rfl⟩ := hget' hv'
    simp only [code, hv']
    have hlen : z.v.size = z.l.length := by rw [(hok z hzm).1.size, size_of (hok z hzm).2]
    rw [hlen] at hk
    obtain ⟨t', h1, h2⟩ := Vec.update_spec hB (hok z hzm).2 hk f
    refine update_safe hB (hok z hzm).1 (hok z hzm).2 hk h1 (hmem hzm) fun m' v hv' _ => ?_
    rw [modify_set hk] at h2
    exact goal_of (zs := zs ++ [Item.mk v t' (z.l.set k (f z.l[k]))]) (perm_snoc zs ⟨v, t', z.l.set k (f z.l[k])⟩) (hoks ⟨hv', h2⟩) (by simp) (by simp; rfl) (by simp [Cmd.run, hz, hk])
  | updateIn i k f =>
    obtain ⟨v, hv', hk⟩ := ha
    obtain ⟨z, hz, hzm, rfl⟩ := hget' hv'
    simp only [code, hv']
    have hlen : z.v.size = z.l.length := by rw [(hok z hzm).1.size, size_of (hok z hzm).2]
    rw [hlen] at hk
    obtain ⟨t', h1, h2⟩ := Vec.update_spec hB (hok z hzm).2 hk f
    refine safe_perm (.refl _) (perm_erase hz) (updateMut_safe hB (hok z hzm).1 (hok z hzm).2 hk h1 fun m' v hv' _ => ?_)
    rw [modify_set hk] at h2
    exact goal_of (zs := zs.set i ⟨v, t', z.l.set k (f z.l[k])⟩) (perm_set (y := ⟨v, t', z.l.set k (f z.l[k])⟩) hz) (hokt ⟨hv', h2⟩) (by rw [List.map_set]) rfl (by simp [Cmd.run, hz, hk, List.map_set])

end Thr
