import Verif.ChampHeap.Api
import Verif.ChampHeap.PutMut
import Verif.ChampHeap.SubMut
import Verif.ChampHeap.Calm
import Verif.Champ.MapInv

/-!
# The operations of `champ` on memory (helper lemmas for C22-C24, C27, C37)
-/

namespace ChampHeap
open Mm Champ

variable {K T P : Type} {A : Api K T P}

theorem updG_act (k : K) (f : P → P) (ex : Bool) : (actUpdate A k f ex).g = updG (A.upd f) k := rfl

section value
variable {N : A.cfg.N} {n : Nat}

theorem value_insert (hA : A.Lawful) (h : (⟨N, n⟩ : Map A.cfg).Inv) (v : T) : ∃ N' ad,
    put A.cfg false (actInsert A v).g (A.cfg.key v) A.cfg.maxDepth N (A.cfg.hash (A.cfg.key v)) 0 = some (some (N', ad)) ∧
      (⟨N', n + if ad then 1 else 0⟩ : Map A.cfg).Inv ∧
      look A.cfg (elems A.cfg A.cfg.maxDepth N') = Spec.step A (look A.cfg (elems A.cfg A.cfg.maxDepth N)) (.insert v) := by
  obtain ⟨m', h1, h2, h3⟩ := step_spec hA h (.insert v)
  have h1 : (⟨N, n⟩ : Map A.cfg).add v = some m' := h1
  unfold Map.add at h1
  have he : put A.cfg false (actInsert A v).g (A.cfg.key v) A.cfg.maxDepth N (A.cfg.hash (A.cfg.key v)) 0 = (doAdd A.cfg A.cfg.maxDepth N v (A.cfg.hash (A.cfg.key v)) 0).map some := put_add A.cfg v _ N _ _
  cases hd : doAdd A.cfg A.cfg.maxDepth N v (A.cfg.hash (A.cfg.key v)) 0 with
  | none => rw [hd] at h1; cases h1
  | some x =>
    obtain ⟨N', ad⟩ := x
    rw [hd] at h1 he
    cases h1
    exact ⟨N', ad, he, h2, h3⟩

theorem value_update (hA : A.Lawful) (h : (⟨N, n⟩ : Map A.cfg).Inv) (k : K) (f : P → P) : ∃ N' ad,
    put A.cfg false (actUpdate A k f false).g k A.cfg.maxDepth N (A.cfg.hash k) 0 = some (some (N', ad)) ∧
      (⟨N', n + if ad then 1 else 0⟩ : Map A.cfg).Inv ∧
      look A.cfg (elems A.cfg A.cfg.maxDepth N') = Spec.step A (look A.cfg (elems A.cfg A.cfg.maxDepth N)) (.update k f) := by
  obtain ⟨m', h1, h2, h3⟩ := step_spec hA h (.update k f)
  have h1 : ((⟨N, n⟩ : Map A.cfg).update (A.upd f) k ()).map Prod.fst = some m' := h1
  unfold Map.update at h1
  have he := put_update A.cfg (A.upd f) k A.cfg.maxDepth N (A.cfg.hash k) 0
  rw [← updG_act k f false] at he
  cases hd : doUpdate A.cfg (A.upd f) A.cfg.maxDepth N k (A.cfg.hash k) 0 () with
  | none => rw [hd] at h1; cases h1
  | some x =>
    obtain ⟨⟨N', ad⟩, _⟩ := x
    rw [hd] at h1 he
    cases h1
    exact ⟨N', ad, he, h2, h3⟩

theorem value_updateIfExists (hA : A.Lawful) (h : (⟨N, n⟩ : Map A.cfg).Inv) (k : K) (f : P → P) :
    (put A.cfg true (actUpdate A k f true).g k A.cfg.maxDepth N (A.cfg.hash k) 0 = some none ∧
      look A.cfg (elems A.cfg A.cfg.maxDepth N) = Spec.step A (look A.cfg (elems A.cfg A.cfg.maxDepth N)) (.updateIfExists k f)) ∨
    ∃ N' ad, put A.cfg true (actUpdate A k f true).g k A.cfg.maxDepth N (A.cfg.hash k) 0 = some (some (N', ad)) ∧
      (⟨N', n⟩ : Map A.cfg).Inv ∧
      look A.cfg (elems A.cfg A.cfg.maxDepth N') = Spec.step A (look A.cfg (elems A.cfg A.cfg.maxDepth N)) (.updateIfExists k f) := by
  obtain ⟨m', h1, h2, h3⟩ := step_spec hA h (.updateIfExists k f)
  have h1 : ((⟨N, n⟩ : Map A.cfg).updateIfExists (A.upd f) k ()).map Prod.fst = some m' := h1
  unfold Map.updateIfExists at h1
  have he := put_updateIfExists A.cfg (A.upd f) k A.cfg.maxDepth N (A.cfg.hash k) 0
  rw [← updG_act k f true] at he
  cases hd : doUpdateIfExists A.cfg (A.upd f) A.cfg.maxDepth N k (A.cfg.hash k) 0 () with
  | none => rw [hd] at h1; cases h1
  | some x =>
    obtain ⟨o, _⟩ := x
    rw [hd] at h1 he
    cases hp : put A.cfg true (actUpdate A k f true).g k A.cfg.maxDepth N (A.cfg.hash k) 0 with
    | none => rw [hp] at he; cases he
    | some y =>
      rw [hp] at he
      cases y with
      | none =>
        left
        cases he
        cases h1
        exact ⟨rfl, h3⟩
      | some z =>
        right
        obtain ⟨N', ad⟩ := z
        cases he
        cases h1
        exact ⟨N', ad, rfl, h2, h3⟩

theorem value_erase (hA : A.Lawful) (h : (⟨N, n⟩ : Map A.cfg).Inv) (k : K) :
    (Champ.doSub A.cfg A.cfg.maxDepth N k (A.cfg.hash k) 0 = some .nothing ∧
      look A.cfg (elems A.cfg A.cfg.maxDepth N) = Spec.step A (look A.cfg (elems A.cfg A.cfg.maxDepth N)) (.erase k)) ∨
    ∃ N', Champ.doSub A.cfg A.cfg.maxDepth N k (A.cfg.hash k) 0 = some (.tree N') ∧ (⟨N', n - 1⟩ : Map A.cfg).Inv ∧
      look A.cfg (elems A.cfg A.cfg.maxDepth N') = Spec.step A (look A.cfg (elems A.cfg A.cfg.maxDepth N)) (.erase k) := by
  obtain ⟨m', h1, h2, h3⟩ := step_spec hA h (.erase k)
  have h1 : (⟨N, n⟩ : Map A.cfg).sub k = some m' := h1
  unfold Map.sub at h1
  cases hd : Champ.doSub A.cfg A.cfg.maxDepth N k (A.cfg.hash k) 0 with
  | none => rw [hd] at h1; cases h1
  | some x =>
    rw [hd] at h1
    cases x with
    | nothing => cases h1; exact .inl ⟨rfl, h3⟩
    | tree N' => cases h1; exact .inr ⟨N', rfl, h2, h3⟩
    | singleton y => cases h1

theorem like_inv (hA : A.Lawful) {N' : A.cfg.N} (h : (⟨N, n⟩ : Map A.cfg).Inv) (hl : Like A.cfg.maxDepth N N') :
    (⟨N', n⟩ : Map A.cfg).Inv ∧ look A.cfg (elems A.cfg A.cfg.maxDepth N') = look A.cfg (elems A.cfg A.cfg.maxDepth N) := by
  refine ⟨⟨hl.wf hA.cfg h.wf, ?_⟩, (look_perm hA.cfg (h.pairwise hA.cfg) hl.elems).symm⟩
  have := h.size
  unfold Map.els at this ⊢
  rw [this]
  exact hl.elems.length_eq

end value
/-- the key is in a collision node -/
def hits (A : Api K T P) (N : A.cfg.N) : Op K T P → Bool
  | .insert v => collHit A.cfg (A.cfg.key v) A.cfg.maxDepth N (A.cfg.hash (A.cfg.key v)) 0
  | .update k _ => collHit A.cfg k A.cfg.maxDepth N (A.cfg.hash k) 0
  | .updateIfExists k _ => collHit A.cfg k A.cfg.maxDepth N (A.cfg.hash k) 0
  | .erase _ => false

section ops
variable {E : Env (Dat A.cfg.W) T} {u : Toks E.gc} {O : List Nat} {L : List (Ref (Val A.cfg.W T))} {s : St (Dat A.cfg.W) T} {em : Nat} {N : A.cfg.N} {x : Ch} {t : Nat}

theorem gone_refl {m : Mem (Dat A.cfg.W) T} (h : Inv (sys E u) m O L) : Gone E u O L m m := ⟨h, .refl⟩

theorem inc_out (h : Inv (sys E u) s.mem O L) (hr : (⟨x.root, .node N, t, false⟩ : Ref (Val A.cfg.W T)) ∈ L)
    (hl : ∀ cl, s.mem x.root = some cl → ¬ u.live cl.tok) (t' : Nat) :
    Out (inc E x.root s) (fun s' _ => Inv (sys E u) s'.mem O (⟨x.root, .node N, t', false⟩ :: L) ∧ Kept (sys E u) O L s.mem s'.mem ∧ s'.fault = s.fault) (fun _ => False) := by
  obtain ⟨cl, _, hc, _, _, _, _, hO⟩ := h.look hr
  have hc : s.mem x.root = some cl := hc
  rw [inc_eq hc]
  exact ⟨h.dup1 hr hc (hl cl hc) rfl t', Kept.incs h E.gc (by intro a ha; rw [List.mem_singleton] at ha; subst ha; exact hO), rfl⟩

/-- the operations that make a new container -/
theorem apply_out (hA : A.Lawful) (hE : E.Fresh) (o : Op K T P) (h : Inv (sys E u) s.mem O L)
    (hem : (⟨em, .node emptyNode, 0, false⟩ : Ref (Val A.cfg.W T)) ∈ L)
    (hr : (⟨x.root, .node N, t, false⟩ : Ref (Val A.cfg.W T)) ∈ L) (hl : ∀ cl, s.mem x.root = some cl → ¬ u.live cl.tok)
    (hN : (⟨N, x.size⟩ : Map A.cfg).Inv) (hn : NoCopyFault s ∨ hits A N o = false) :
    Out (x.apply A E em o s) (fun s' y => ∃ N', (⟨N', y.size⟩ : Map A.cfg).Inv ∧
        look A.cfg (elems A.cfg A.cfg.maxDepth N') = Spec.step A (look A.cfg (elems A.cfg A.cfg.maxDepth N)) o ∧
        Inv (sys E u) s'.mem O (⟨y.root, .node N', 0, false⟩ :: L) ∧ Kept (sys E u) O L s.mem s'.mem)
      (fun s' => Gone E u O L s.mem s'.mem) := by
  have hf := WF.form hN.wf
  have ha : At (sys E u) s.mem L x.root (.node N) := h.at hr hl
  have key : ∀ (a : Act K T) (g : Option (Nat × Bool) → HM A.cfg.W T Ch), (NoCopyFault s ∨ collHit A.cfg a.k A.cfg.maxDepth N (A.cfg.hash a.k) 0 = false) →
      (∀ s1 r, PutR E u O L s.mem s1.mem r (put A.cfg a.ex a.g a.k A.cfg.maxDepth N (A.cfg.hash a.k) 0) → Kept (sys E u) O L s.mem s1.mem →
        Out (g r s1) (fun s' y => ∃ N', (⟨N', y.size⟩ : Map A.cfg).Inv ∧
          look A.cfg (elems A.cfg A.cfg.maxDepth N') = Spec.step A (look A.cfg (elems A.cfg A.cfg.maxDepth N)) o ∧
          Inv (sys E u) s'.mem O (⟨y.root, .node N', 0, false⟩ :: L) ∧ Kept (sys E u) O L s.mem s'.mem) (fun s' => Gone E u O L s.mem s'.mem)) →
      Out (((tick .user).bind fun _ => (doPut A.cfg E a A.cfg.maxDepth x.root (A.cfg.hash a.k) 0).bind g) s) (fun s' y => ∃ N', (⟨N', y.size⟩ : Map A.cfg).Inv ∧
          look A.cfg (elems A.cfg A.cfg.maxDepth N') = Spec.step A (look A.cfg (elems A.cfg A.cfg.maxDepth N)) o ∧
          Inv (sys E u) s'.mem O (⟨y.root, .node N', 0, false⟩ :: L) ∧ Kept (sys E u) O L s.mem s'.mem) (fun s' => Gone E u O L s.mem s'.mem) := by
    intro a g hn hg
    refine out_bind (out_mono tick_user (fun _ _ h => h) fun s' h' => gone_of_eq h h') ?_
    rintro s1 _ ⟨h1, hn1⟩
    refine out_bind (out_mono (doPut_out hE a A.cfg.maxDepth N x.root (A.cfg.hash a.k) 0 s1 hf (by rw [h1]; exact h) (by rw [h1]; exact ha) (hn.imp hn1 id))
      (fun s2 r hr => hr) (fun s2 hr => by rw [h1] at hr; exact hr)) ?_
    rintro s2 r ⟨h2, h3⟩
    rw [h1] at h2 h3
    exact hg s2 r h2 h3
  cases o with
  | insert v =>
    refine key (actInsert A v) _ hn ?_
    intro s1 r hp hk
    obtain ⟨N', ad, h1, h2, h3⟩ := value_insert hA hN v
    have hp : PutR E u O L s.mem s1.mem r (put A.cfg false (actInsert A v).g (A.cfg.key v) A.cfg.maxDepth N (A.cfg.hash (A.cfg.key v)) 0) := hp
    rw [h1] at hp
    cases r with
    | none => exact hp.elim
    | some q =>
      obtain ⟨q, ad'⟩ := q
      obtain ⟨rfl, hi⟩ := hp
      exact ⟨N', h2, h3, hi.weaken (r := (⟨q, .node N', 0, true⟩ : Ref (Val A.cfg.W T))) (fun cl hc hlv => ((hi.look List.mem_cons_self).elim fun cl' h => h.elim fun _ h => by
        have := h.1; rw [hc] at this; cases this; exact h.2.2.2.1 hlv)) (fun h => by cases h), hk⟩
  | update k f =>
    refine key (actUpdate A k f false) _ hn ?_
    intro s1 r hp hk
    obtain ⟨N', ad, h1, h2, h3⟩ := value_update hA hN k f
    have hp : PutR E u O L s.mem s1.mem r (put A.cfg false (actUpdate A k f false).g k A.cfg.maxDepth N (A.cfg.hash k) 0) := hp
    rw [h1] at hp
    cases r with
    | none => exact hp.elim
    | some q =>
      obtain ⟨q, ad'⟩ := q
      obtain ⟨rfl, hi⟩ := hp
      exact ⟨N', h2, h3, hi.weaken (r := (⟨q, .node N', 0, true⟩ : Ref (Val A.cfg.W T))) (fun cl hc hlv => ((hi.look List.mem_cons_self).elim fun cl' h => h.elim fun _ h => by
        have := h.1; rw [hc] at this; cases this; exact h.2.2.2.1 hlv)) (fun h => by cases h), hk⟩
  | updateIfExists k f =>
    refine key (actUpdate A k f true) _ hn ?_
    intro s1 r hp hk
    have hp : PutR E u O L s.mem s1.mem r (put A.cfg true (actUpdate A k f true).g k A.cfg.maxDepth N (A.cfg.hash k) 0) := hp
    rcases value_updateIfExists hA hN k f with ⟨h1, h3⟩ | ⟨N', ad, h1, h2, h3⟩
    · rw [h1] at hp
      cases r with
      | some q => exact hp.elim
      | none =>
        have hp : s1.mem = s.mem := hp
        refine out_bind (out_mono (inc_out (s := s1) (x := x) (by rw [hp]; exact h) hr (by rw [hp]; exact hl) 0) (fun _ _ h => h) (fun _ h => h.elim)) ?_
        rintro s2 _ ⟨h4, h5, _⟩
        rw [hp] at h5
        exact ⟨N, hN, h3, h4, h5⟩
    · rw [h1] at hp
      cases r with
      | none => exact hp.elim
      | some q =>
        obtain ⟨q, ad'⟩ := q
        obtain ⟨rfl, hi⟩ := hp
        exact ⟨N', h2, h3, hi.weaken (r := (⟨q, .node N', 0, true⟩ : Ref (Val A.cfg.W T))) (fun cl hc hlv => ((hi.look List.mem_cons_self).elim fun cl' h => h.elim fun _ h => by
          have := h.1; rw [hc] at this; cases this; exact h.2.2.2.1 hlv)) (fun h => by cases h), hk⟩
  | erase k =>
    refine out_bind (out_mono tick_user (fun _ _ h => h) fun s' h' => gone_of_eq h h') ?_
    rintro s1 _ ⟨h1, hn1⟩
    refine out_bind (out_mono (doSub_out hE hem k A.cfg.maxDepth N x.root (A.cfg.hash k) 0 s1 hf (by rw [h1]; exact h) (by rw [h1]; exact ha))
      (fun s2 r hr => hr) (fun s2 hr => by rw [h1] at hr; exact hr)) ?_
    intro s2 r hp
    rw [h1] at hp
    rcases value_erase hA hN k with ⟨h2, h3⟩ | ⟨N', h2, h3, h4⟩
    · rw [h2] at hp
      cases r with
      | tree _ => exact hp.elim
      | single _ _ => exact hp.elim
      | nothing =>
        have hp : s2.mem = s.mem := hp
        refine out_bind (out_mono (inc_out (s := s2) (x := x) (by rw [hp]; exact h) hr (by rw [hp]; exact hl) 0) (fun _ _ h => h) (fun _ h => h.elim)) ?_
        rintro s3 _ ⟨h4, h5, _⟩
        rw [hp] at h5
        exact ⟨N, hN, h3, h4, h5⟩
    · rw [h2] at hp
      cases r with
      | nothing => exact hp.elim
      | single _ _ => exact hp.elim
      | tree q =>
        obtain ⟨b, hi, hk, _⟩ := hp
        exact ⟨N', h3, h4, hi.weaken (r := (⟨q, .node N', 0, b⟩ : Ref (Val A.cfg.W T))) (fun cl hc hlv => ((hi.look List.mem_cons_self).elim fun cl' h => h.elim fun _ h => by
          have := h.1; rw [hc] at this; cases this; exact h.2.2.2.1 hlv)) (fun h => by cases h), hk⟩

end ops

section mutops
variable {E : Env (Dat A.cfg.W) T} {u : Toks E.gc} {O : List Nat} {L : List (Ref (Val A.cfg.W T))} {s : St (Dat A.cfg.W) T} {em : Nat} {N : A.cfg.N} {x : Ch} {t e : Nat} {b : Bool}

/-- forget that a reference is the only one -/
theorem Inv.plain {m : Mem (Dat A.cfg.W) T} {q : Nat} {v : Val A.cfg.W T} (h : Inv (sys E u) m O (⟨q, v, t, b⟩ :: L)) :
    Inv (sys E u) m O (⟨q, v, t, false⟩ :: L) := by
  refine h.weaken (r := ⟨q, v, t, b⟩) ?_ (fun h => by cases h)
  intro cl hc hlv
  obtain ⟨cl', _, hc', _, _, h4, _⟩ := h.look List.mem_cons_self
  rw [hc] at hc'; cases hc'
  exact h4 hlv

theorem calm_applyMut (o : Op K T P) : Calm (x.applyMut A E em e o) := by
  have hrep : ∀ mu, Calm (x.replaced A E mu) := fun mu => by
    unfold Ch.replaced
    exact calm_ite (calm_ret _) (calm_release E _ _)
  cases o with
  | insert v =>
    refine calm_bind calm_tickU fun _ => calm_bind (calm_doPutMut A.cfg E e _ _ _ _ _) fun r => ?_
    cases r with
    | none => exact calm_undef
    | some q => exact calm_bind (hrep _) fun _ => calm_ret _
  | update k f =>
    refine calm_bind calm_tickU fun _ => calm_bind (calm_doPutMut A.cfg E e _ _ _ _ _) fun r => ?_
    cases r with
    | none => exact calm_undef
    | some q => exact calm_bind (hrep _) fun _ => calm_ret _
  | updateIfExists k f =>
    refine calm_bind calm_tickU fun _ => calm_bind (calm_doPutMut A.cfg E e _ _ _ _ _) fun r => ?_
    cases r with
    | none => exact calm_ret _
    | some q => exact calm_bind (hrep _) fun _ => calm_ret _
  | erase k =>
    refine calm_bind calm_tickU fun _ => calm_bind (calm_doSubMut A.cfg E em e _ _ _ _ _) fun r => ?_
    cases r with
    | nothing => exact calm_ret _
    | single _ _ => exact calm_undef
    | tree q _ => exact calm_bind (hrep _) fun _ => calm_ret _

/-- the old root, when it was not changed in place -/
theorem replaced_out {N' : A.cfg.N} {q : Nat} {bq : Bool} {mu : Bool} {m : Mem (Dat A.cfg.W) T} (hf : Form A.cfg.maxDepth N)
    (h1 : mu = true → Inv (sys E u) s.mem O (⟨q, .node N', t, bq⟩ :: L) ∧ Kept (sys E u) O L m s.mem)
    (h2 : mu = false → Inv (sys E u) s.mem O (⟨q, .node N', t, bq⟩ :: ⟨x.root, .node N, t, b⟩ :: L) ∧ Kept (sys E u) O (⟨x.root, .node N, t, b⟩ :: L) m s.mem) :
    Out (x.replaced A E mu s) (fun s' _ => Inv (sys E u) s'.mem O (⟨q, .node N', t, false⟩ :: L) ∧ Kept (sys E u) O L m s'.mem) (fun _ => False) := by
  unfold Ch.replaced
  cases mu with
  | true =>
    obtain ⟨h3, h4⟩ := h1 rfl
    exact ⟨Inv.plain h3, h4⟩
  | false =>
    obtain ⟨h3, h4⟩ := h2 rfl
    refine out_mono (release_out (r := ⟨x.root, .node N, t, b⟩) rfl hf.shape (h3.permL (List.Perm.swap _ _ _))) ?_ (fun _ h => h)
    rintro s' _ ⟨h5, h6⟩
    exact ⟨Inv.plain h5, (Kept.tail h4).trans (Kept.tail h6)⟩

/-- the operations that change a container -/
theorem applyMut_out (hA : A.Lawful) (hE : E.Fresh) (o : Op K T P) (he : E.gc = true → u.live e) (ht : E.gc = true → t = e)
    (h : Inv (sys E u) s.mem O (⟨x.root, .node N, t, b⟩ :: L))
    (hem : (⟨em, .node emptyNode, 0, false⟩ : Ref (Val A.cfg.W T)) ∈ L)
    (hN : (⟨N, x.size⟩ : Map A.cfg).Inv) (hn : NoCopyFault s ∨ hits A N o = false) :
    Out (x.applyMut A E em e o s) (fun s' y => ∃ N', (⟨N', y.size⟩ : Map A.cfg).Inv ∧
        look A.cfg (elems A.cfg A.cfg.maxDepth N') = Spec.step A (look A.cfg (elems A.cfg A.cfg.maxDepth N)) o ∧
        Inv (sys E u) s'.mem O (⟨y.root, .node N', t, false⟩ :: L) ∧ Kept (sys E u) O L s.mem s'.mem)
      (fun _ => True) := by
  have hf := WF.form hN.wf
  have key : ∀ (a : Act K T) (g : Option (Nat × Bool × Bool) → HM A.cfg.W T Ch), (NoCopyFault s ∨ collHit A.cfg a.k A.cfg.maxDepth N (A.cfg.hash a.k) 0 = false) →
      (∀ s1 r, PutM E u O L A.cfg.maxDepth ⟨x.root, .node N, t, b⟩ s.mem s1.mem r (put A.cfg a.ex a.g a.k A.cfg.maxDepth N (A.cfg.hash a.k) 0) →
        Out (g r s1) (fun s' y => ∃ N', (⟨N', y.size⟩ : Map A.cfg).Inv ∧
          look A.cfg (elems A.cfg A.cfg.maxDepth N') = Spec.step A (look A.cfg (elems A.cfg A.cfg.maxDepth N)) o ∧
          Inv (sys E u) s'.mem O (⟨y.root, .node N', t, false⟩ :: L) ∧ Kept (sys E u) O L s.mem s'.mem) (fun _ => True)) →
      Out (((tick .user).bind fun _ => (doPutMut A.cfg E e a A.cfg.maxDepth x.root (A.cfg.hash a.k) 0).bind g) s) (fun s' y => ∃ N', (⟨N', y.size⟩ : Map A.cfg).Inv ∧
          look A.cfg (elems A.cfg A.cfg.maxDepth N') = Spec.step A (look A.cfg (elems A.cfg A.cfg.maxDepth N)) o ∧
          Inv (sys E u) s'.mem O (⟨y.root, .node N', t, false⟩ :: L) ∧ Kept (sys E u) O L s.mem s'.mem) (fun _ => True) := by
    intro a g hn hg
    refine out_bind (out_mono tick_user (fun _ _ h => h) fun s' h' => trivial) ?_
    rintro s1 _ ⟨h1, hn1⟩
    refine out_bind (doPutMut_out hE he a A.cfg.maxDepth N x.root (A.cfg.hash a.k) 0 O L t b s1 hf ht (by rw [h1]; exact h) (hn.imp hn1 id)) ?_
    intro s2 r h2
    rw [h1] at h2
    exact hg s2 r h2
  cases o with
  | insert v =>
    refine key (actInsert A v) _ hn ?_
    intro s1 r hp
    obtain ⟨N', ad, h1, h2, h3⟩ := value_insert hA hN v
    have hp : PutM E u O L A.cfg.maxDepth ⟨x.root, .node N, t, b⟩ s.mem s1.mem r (put A.cfg false (actInsert A v).g (A.cfg.key v) A.cfg.maxDepth N (A.cfg.hash (A.cfg.key v)) 0) := hp
    rw [h1] at hp
    cases r with
    | none => exact hp.elim
    | some q =>
      obtain ⟨q, ad', mu⟩ := q
      obtain ⟨rfl, N'', hlk, hm1, hm2⟩ := hp
      obtain ⟨h4, h5⟩ := like_inv hA h2 hlk
      refine out_bind (out_mono (replaced_out (x := x) hf hm1 hm2) (fun _ _ h => h) fun _ h => h.elim) ?_
      rintro s2 _ ⟨h6, h7⟩
      exact ⟨N'', h4, h5.trans h3, h6, h7⟩
  | update k f =>
    refine key (actUpdate A k f false) _ hn ?_
    intro s1 r hp
    obtain ⟨N', ad, h1, h2, h3⟩ := value_update hA hN k f
    have hp : PutM E u O L A.cfg.maxDepth ⟨x.root, .node N, t, b⟩ s.mem s1.mem r (put A.cfg false (actUpdate A k f false).g k A.cfg.maxDepth N (A.cfg.hash k) 0) := hp
    rw [h1] at hp
    cases r with
    | none => exact hp.elim
    | some q =>
      obtain ⟨q, ad', mu⟩ := q
      obtain ⟨rfl, N'', hlk, hm1, hm2⟩ := hp
      obtain ⟨h4, h5⟩ := like_inv hA h2 hlk
      refine out_bind (out_mono (replaced_out (x := x) hf hm1 hm2) (fun _ _ h => h) fun _ h => h.elim) ?_
      rintro s2 _ ⟨h6, h7⟩
      exact ⟨N'', h4, h5.trans h3, h6, h7⟩
  | updateIfExists k f =>
    refine key (actUpdate A k f true) _ hn ?_
    intro s1 r hp
    have hp : PutM E u O L A.cfg.maxDepth ⟨x.root, .node N, t, b⟩ s.mem s1.mem r (put A.cfg true (actUpdate A k f true).g k A.cfg.maxDepth N (A.cfg.hash k) 0) := hp
    rcases value_updateIfExists hA hN k f with ⟨h1, h3⟩ | ⟨N', ad, h1, h2, h3⟩
    · rw [h1] at hp
      cases r with
      | some q => exact hp.elim
      | none =>
        have hp : s1.mem = s.mem := hp
        exact ⟨N, hN, h3, by rw [hp]; exact Inv.plain h, .of_eq hp⟩
    · rw [h1] at hp
      cases r with
      | none => exact hp.elim
      | some q =>
        obtain ⟨q, ad', mu⟩ := q
        obtain ⟨rfl, N'', hlk, hm1, hm2⟩ := hp
        obtain ⟨h4, h5⟩ := like_inv hA h2 hlk
        refine out_bind (out_mono (replaced_out (x := x) hf hm1 hm2) (fun _ _ h => h) fun _ h => h.elim) ?_
        rintro s2 _ ⟨h6, h7⟩
        exact ⟨N'', h4, h5.trans h3, h6, h7⟩
  | erase k =>
    refine out_bind (out_mono tick_user (fun _ _ h => h) fun s' h' => trivial) ?_
    rintro s1 _ ⟨h1, hn1⟩
    refine out_bind (doSubMut_out hE he k A.cfg.maxDepth N x.root (A.cfg.hash k) 0 O L t b s1 hem hf ht (by rw [h1]; exact h)) ?_
    intro s2 r hp
    rw [h1] at hp
    rcases value_erase hA hN k with ⟨h2, h3⟩ | ⟨N', h2, h3, h4⟩
    · rw [h2] at hp
      cases r with
      | tree _ _ => exact hp.elim
      | single _ _ => exact hp.elim
      | nothing =>
        have hp : s2.mem = s.mem := hp
        exact ⟨N, hN, h3, by rw [hp]; exact Inv.plain h, .of_eq hp⟩
    · rw [h2] at hp
      cases r with
      | nothing => exact hp.elim
      | single _ _ => exact hp.elim
      | tree q mu =>
        obtain ⟨N'', bq, hlk, _, hm1, hm2⟩ := hp
        obtain ⟨h5, h6⟩ := like_inv hA h3 hlk
        refine out_bind (out_mono (replaced_out (x := x) hf hm1 hm2) (fun _ _ h => h) fun _ h => h.elim) ?_
        rintro s3 _ ⟨h7, h8⟩
        exact ⟨N'', h5, h6.trans h4, h7, h8⟩

/-- the same, when nothing throws -/
theorem applyMut_calm (hA : A.Lawful) (hE : E.Fresh) (o : Op K T P) (he : E.gc = true → u.live e) (ht : E.gc = true → t = e)
    (h : Inv (sys E u) s.mem O (⟨x.root, .node N, t, b⟩ :: L))
    (hem : (⟨em, .node emptyNode, 0, false⟩ : Ref (Val A.cfg.W T)) ∈ L)
    (hN : (⟨N, x.size⟩ : Map A.cfg).Inv) (hs : s.fault = none) :
    Out (x.applyMut A E em e o s) (fun s' y => (∃ N', (⟨N', y.size⟩ : Map A.cfg).Inv ∧
        look A.cfg (elems A.cfg A.cfg.maxDepth N') = Spec.step A (look A.cfg (elems A.cfg A.cfg.maxDepth N)) o ∧
        Inv (sys E u) s'.mem O (⟨y.root, .node N', t, false⟩ :: L) ∧ Kept (sys E u) O L s.mem s'.mem) ∧ s'.fault = none)
      (fun _ => False) :=
  out_calm (calm_applyMut o) hs (applyMut_out hA hE o he ht h hem hN (.inl (fun n hh => by rw [hs] at hh; cases hh)))

/-- `from_range` -/
theorem inserts_calm (hA : A.Lawful) (hE : E.Fresh) (he : E.gc = true → u.live e) (ht : E.gc = true → t = e)
    (hem : (⟨em, .node emptyNode, 0, false⟩ : Ref (Val A.cfg.W T)) ∈ L) : ∀ (vs : List T) (x : Ch) (N : A.cfg.N) (b : Bool) (s : St (Dat A.cfg.W) T),
    Inv (sys E u) s.mem O (⟨x.root, .node N, t, b⟩ :: L) → (⟨N, x.size⟩ : Map A.cfg).Inv → s.fault = none →
    Out (x.inserts A E em e vs s) (fun s' y => (∃ N', (⟨N', y.size⟩ : Map A.cfg).Inv ∧
        look A.cfg (elems A.cfg A.cfg.maxDepth N') = (vs.map Op.insert).foldl (Spec.step A) (look A.cfg (elems A.cfg A.cfg.maxDepth N)) ∧
        Inv (sys E u) s'.mem O (⟨y.root, .node N', t, false⟩ :: L) ∧ Kept (sys E u) O L s.mem s'.mem) ∧ s'.fault = none)
      (fun _ => False)
  | [], x, N, b, s, h, hN, hs => ⟨⟨N, hN, rfl, Inv.plain h, .refl⟩, hs⟩
  | v :: vs, x, N, b, s, h, hN, hs => by
    rw [Ch.inserts]
    refine out_bind (out_guard (E' := fun _ => False) (applyMut_calm hA hE (.insert v) he ht h hem hN hs) fun _ h => h.elim) ?_
    rintro s1 y ⟨⟨N1, h1, h2, h3, h4⟩, h5⟩
    refine out_mono (inserts_calm hA hE he ht hem vs y N1 false s1 h3 h1 h5) ?_ (fun _ h => h)
    rintro s2 z ⟨⟨N2, h6, h7, h8, h9⟩, h10⟩
    refine ⟨⟨N2, h6, ?_, h8, h4.trans h9⟩, h10⟩
    rw [h7, h2]; rfl

end mutops

end ChampHeap
