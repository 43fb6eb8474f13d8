import Verif.FlexHeap.LeftMut
import Verif.FlexHeap.Calm
import Verif.VecHeap.Ops2
import Verif.Rrb.FlexSpec

/-!
# The operations of flexible vectors on memory compute those on values: growing
-/

namespace FlexHeap
open Mm Rrb VecHeap

variable {T : Type} {c : Cfg} {E : Env Dat T} {u : Toks E.gc} {O : List Nat} {L : List (Ref (Val T))}

section
variable {s : St Dat T} {m m' : Mem Dat T} {p q n i k e : Nat} {xs l pre tl : List T} {t t' : Tree T} {v : Vc} {N : Node T} {r : Ref (Val T)} {own : Option Nat} {cl : Cell Dat T}

/-- the parts of a flexible vector -/
structure FParts (c : Cfg) (v : Vc) (t : Tree T) (pre tl : List T) : Prop where
  off' : Flex.tailOffset c t = some pre.length
  size : v.size = pre.length + tl.length
  tail : t.tail = .leaf tl
  le : tl.length ≤ 2 ^ c.BL
  nil : tl = [] → pre = []
  root : (pre = [] ∧ t.root = emptyRoot ∧ v.shift = c.BL) ∨
    ∃ d, pre ≠ [] ∧ v.shift = c.BL + c.B * d ∧ levels c v.shift = d + 1 ∧ Rrb.RootOK c d t.root pre

theorem fparts (hB : 0 < c.B) (hi : Is v t) (h : Flex.Inv c t l) : ∃ pre tl, l = pre ++ tl ∧ FParts c v t pre tl := by
  obtain ⟨pre, tl, rfl, hsz, ht, hle, hnil, hroot⟩ := h
  refine ⟨pre, tl, rfl, Flex.tailOffset_ok (by simp [hsz]) hle hnil hroot, by rw [hi.size, hsz]; simp, ht, hle, hnil, ?_⟩
  rcases hroot with ⟨h1, h2, h3⟩ | ⟨d, h1, h2⟩
  · exact .inl ⟨h1, h2, hi.shift.trans h3⟩
  · have hsh := hi.shift.trans h1
    refine .inr ⟨d, ?_, hsh, by rw [hsh]; exact levels_shift hB d, h2⟩
    rintro rfl
    have := Flex.RootOK.ne h2
    simp at this

theorem FParts.rest (hp : FParts c v t pre tl) : v.size - pre.length = tl.length := by
  have := hp.size
  omega

theorem FParts.inner (hp : FParts c v t pre tl) : ∃ rs Ns, t.root = .inner rs Ns := by
  rcases hp.root with ⟨_, h, _⟩ | ⟨d, _, _, _, h⟩
  · exact ⟨none, [], h⟩
  · rcases Flex.RootOK.shape h with ⟨cs, he, _⟩ | ⟨cs, _, he⟩
    · exact ⟨_, _, he⟩
    · exact ⟨_, _, he⟩

theorem off_eq (hp : FParts c v t pre tl) (hi : Is v t) (hd : Den (sys c E u) s.mem v.root (.node t.root)) : Fc.off c v s = .ok s pre.length := by
  obtain ⟨rs, Ns, he⟩ := hp.inner
  have ho := hp.off'
  unfold Flex.tailOffset at ho
  rw [he] at hd ho
  obtain ⟨cl, cap, r, ks, hc, hdt, _, hr, ht, _⟩ := den_inner hd
  unfold Fc.off
  rw [bind_ok (tableOf_eq hc hdt)]
  simp only [Node.relaxed?, Option.bind_eq_bind, Option.bind_some] at ho
  cases rs with
  | none =>
    cases r with
    | some _ => cases hr
    | none =>
      have ho : Vec.tailOffset c t.size = pre.length := by simpa using ho
      rw [hi.size, ← ho]
      rfl
  | some sz =>
    cases r with
    | none => cases hr
    | some tb =>
      simp only
      rw [bind_ok (sizesOf_den (ht tb rfl sz rfl))]
      exact liftO_eq ho

/-- destructor -/
theorem fdrop_out (hB : 0 < c.B) (hi : Is v t) (hv : Flex.Inv c t l) (h : Inv (sys c E u) s.mem O (refs v t k ++ L)) :
    Out (Fc.drop c E v s) (fun s' _ => Gone c E u O L s.mem s'.mem) (fun _ => False) := by
  obtain ⟨pre, tl, rfl, hp⟩ := fparts hB hi hv
  unfold Fc.drop
  rw [bind_ok (off_eq hp hi (h.den (r := ⟨v.root, .node t.root, k, false⟩) (by simp [refs])))]
  refine out_bind (Q := fun s' _ => Gone c E u O (⟨v.tail, .node t.tail, k, false⟩ :: L) s.mem s'.mem) ?_ ?_
  · rcases hp.root with ⟨h1, h2, h3⟩ | ⟨d, h1, h2, h3, h4⟩
    · rw [if_neg (by rw [h1]; simp)]
      exact decEmpty_out (r := ⟨v.root, .node t.root, k, false⟩) (by rw [← h2]) h
    · rw [if_pos (by simpa using h1), h3, h2]
      exact decInner_out hB (r := ⟨v.root, .node t.root, k, false⟩) rfl h4.wf (by rw [h4.els]) h
  · intro s1 _ hg
    refine out_mono (decLeaf_out (r := ⟨v.tail, .node t.tail, k, false⟩) (by rw [hp.tail]) hp.rest.symm hg.1) ?_ (fun _ h => h)
    exact fun s2 _ hg2 => Gone.trans (Kept.tail hg.2) hg2

/-! ### Growing -/

/-- the cases of `push_tail` -/
theorem FParts.grow (hB : 0 < c.B) (hp : FParts c v t pre tl) (htl : tl.length = 2 ^ c.BL) {s' : Nat} {R : Node T} (h : Flex.pushTailRoot c t.root v.shift pre.length (.leaf tl) tl.length = some (s', R)) :
    (∃ sz Ns d ro, t.root = .inner (some sz) Ns ∧ levels c v.shift = d + 1 ∧ RFits c (d + 1) (.rel v.shift sz) t.root ∧ pushTail c (.leaf tl) tl.length (d + 1) ((RShp.rel v.shift sz).pos t.root) = some ro ∧
      ((∃ n, ro = some n ∧ n = R ∧ s' = v.shift) ∨ (ro = none ∧ s' = v.shift + c.B ∧ R = .inner (some [pre.length, pre.length + tl.length]) [t.root, mkPath (d + 1) (.leaf tl)]))) ∨
    (∃ Ns, t.root = .inner none Ns ∧
      ((pre.length = 2 ^ c.B <<< v.shift ∧ s' = v.shift + c.B ∧ R = .inner none [t.root, mkPath (levels c v.shift) (.leaf tl)]) ∨
       (pre.length ≠ 2 ^ c.B <<< v.shift ∧ pre.length ≠ 0 ∧ s' = v.shift ∧ ∃ d, levels c v.shift = d + 1 ∧ Fits c (d + 1) (.regSub v.shift pre.length) t.root ∧ RegPos c d ((Shp.regSub v.shift pre.length).pos t.root) t.root pre.length ∧
          (els (d + 1) t.root).length < Rrb.cap c (d + 1) ∧ pushTail c (.leaf tl) (2 ^ c.BL) (d + 1) ((Shp.regSub v.shift pre.length).pos t.root) = some (some R)) ∨
       (pre.length ≠ 2 ^ c.B <<< v.shift ∧ pre.length = 0 ∧ t.root = emptyRoot ∧ s' = v.shift ∧ levels c v.shift = 1 ∧ R = .inner none [.leaf tl]))) := by
  have h2 := Flex.two_le_pow hB
  unfold Flex.pushTailRoot at h
  rcases hp.root with ⟨rfl, hr, hs⟩ | ⟨d, hne, hs, hlev, hr⟩
  · right
    refine ⟨[], hr, .inr (.inr ?_)⟩
    have hfull : ([] : List T).length ≠ 2 ^ c.B <<< v.shift := by
      have : 0 < 2 ^ c.B <<< v.shift := by
        rw [Nat.shiftLeft_eq]; exact Nat.mul_pos (Nat.two_pow_pos _) (Nat.two_pow_pos _)
      rw [List.length_nil]; omega
    have hlev : levels c v.shift = 1 := by rw [hs]; simpa using levels_shift hB 0
    rw [hr] at h
    simp only [emptyRoot, Node.relaxed?, Option.bind_eq_bind, Option.bind_some, hlev] at h
    rw [if_neg hfull] at h
    simp at h
    exact ⟨hfull, rfl, hr, h.1.symm, hlev, by rw [← h.2]; rfl⟩
  · have hpos : pre.length ≠ 0 := by simpa using hne
    rcases Flex.RootOK.shape hr with ⟨cs, he, hreg⟩ | ⟨cs, hcs, he⟩
    · right
      refine ⟨cs, he, ?_⟩
      have hrx : t.root.relaxed? = some none := by rw [he]; rfl
      simp only [hrx, Option.bind_eq_bind, Option.bind_some] at h
      by_cases hfull : pre.length = 2 ^ c.B <<< v.shift
      · left
        rw [if_pos hfull, Vec.mkInner_ok (by simpa using h2)] at h
        cases h
        exact ⟨hfull, rfl, rfl⟩
      · right; left
        rw [if_neg hfull, if_pos hpos, hlev] at h
        have hcap : 2 ^ c.B <<< v.shift = Rrb.cap c (d + 1) := by
          rw [hs, Nat.shiftLeft_eq, pow_shift, cap_succ, mul_comm]
        have hlen := hreg.len
        rw [hr.els] at hlen
        have hpe : (Shp.regSub v.shift pre.length).pos t.root = .regSub t.root v.shift pre.length := rfl
        rw [hpe]
        cases hq : pushTail c (.leaf tl) (2 ^ c.BL) (d + 1) (.regSub t.root v.shift pre.length) with
        | none => rw [hq] at h; cases h
        | some Rx =>
          rw [hq] at h
          cases Rx with
          | none => cases h
          | some Rx =>
            cases h
            refine ⟨hfull, hpos, rfl, d, hlev, ?_, .inr ⟨?_, hlen.2.1⟩, by rw [hr.els]; omega, hq⟩
            · rw [hs]
              exact Fits.regSub hreg (by rw [hr.els])
            · rw [hs]
    · left
      obtain ⟨sz, hsz⟩ : ∃ sz, t.root = .inner (some sz) cs := ⟨_, he⟩
      have hf : RFits c (d + 1) (.rel v.shift sz) t.root := by
        have := subSh_fits (size := pre.length) hr.wf (by rw [hr.els])
        rw [← hs, hsz] at this
        rw [hsz]
        exact this
      have hrx : t.root.relaxed? = some (some sz) := by rw [hsz]; rfl
      simp only [hrx, Option.bind_eq_bind, Option.bind_some, hlev] at h
      have hpe : (RShp.rel v.shift sz).pos t.root = .rel t.root v.shift sz := rfl
      cases hq : pushTail c (.leaf tl) tl.length (d + 1) (.rel t.root v.shift sz) with
      | none => rw [hq] at h; cases h
      | some ro =>
        refine ⟨sz, cs, d, ro, hsz, hlev, hf, by rw [hpe]; exact hq, ?_⟩
        rw [hq] at h
        cases ro with
        | some n =>
          left
          cases h
          exact ⟨_, rfl, rfl, rfl⟩
        | none =>
          right
          simp only [Option.bind_some, mkInnerR] at h
          rw [if_pos (by simpa using h2)] at h
          cases h
          exact ⟨rfl, rfl, rfl⟩

/-- the path and the two children of a new root; `P` provides the reference to the old root -/
theorem growMid_out {β : Type} {rr rt : Ref (Val T)} {Nr Nt : Node T} {P : HM T Unit} {K : HM T β} {Q : St Dat T → β → Prop} {d nr : Nat} {cap : Nat} {rel : Option Nat} {L' : List (Ref (Val T))} (hE : E.Fresh)
    (hrr : rr.val = .node Nr) (hrt : rt.val = .node Nt) (ht : E.gc = true → own.getD 0 = rt.tok) (hkr : E.gc = true → rr.tok = cl.tok) (hkt : E.gc = true → rt.tok = cl.tok) (hcap : 2 ≤ cap)
    (h : OpG c E u s.mem O (rt :: L') nr cl cap rel [] [])
    (hP : ∀ (s1 : St Dat T) x, Inv (sys c E u) s1.mem (nr :: O) (x :: L') → Out (P s1) (fun s2 _ => Inv (sys c E u) s2.mem (nr :: O) (rr :: x :: L) ∧ Kept (sys c E u) (nr :: O) (x :: L') s1.mem s2.mem) (fun _ => False))
    (hsub : ∀ x ∈ L', x ∈ rr :: L)
    (hK : ∀ (s' : St Dat T) cl' pp, cl'.tok = cl.tok → OpG c E u s'.mem O L nr cl' cap rel [rr, ⟨pp, .node (mkPath d Nt), rt.tok, false⟩] [Nr, mkPath d Nt] → Kept (sys c E u) O (rt :: L') s.mem s'.mem → From (sys c E u) s'.mem pp rt.ptr →
      Out (K s') Q (fun _ => False)) :
    Out (((makePath c E own d rt.ptr).bind fun path => P.bind fun _ => (putKid nr 0 rr.ptr).bind fun _ => (putKid nr 1 path).bind fun _ => K) s) Q
      (fun s' => Gone c E u (nr :: O) (rt :: L') s.mem s'.mem) := by
  have hi0 : Inv (sys c E u) s.mem (nr :: O) (rt :: L') := h.inv
  refine out_bind (makePath_out hE ht hrt d (nr :: O) s hi0) ?_
  rintro s2 path ⟨hi2, hk2, hf2⟩
  refine out_bind (out_mono (hP s2 _ hi2) (fun _ _ h => h) (fun _ h => h.elim)) ?_
  rintro s3 _ ⟨hi3, hk3⟩
  have hop3 := h.mem (L' := rr :: ⟨path, .node (mkPath d Nt), rt.tok, false⟩ :: L) hi3 ((hk3.2 _ List.mem_cons_self).trans (hk2.2 _ List.mem_cons_self))
  obtain ⟨cl4, hp4, ht4, hop4, hk4⟩ := hop3.push (n := 0) hrr hkr (by simp; omega) rfl
  rw [bind_ok hp4]
  obtain ⟨cl5, hp5, ht5, hop5, _⟩ := hop4.push (s := { s3 with mem := upd s3.mem nr (some cl4) }) (n := 1) rfl (fun hg => by rw [ht4]; exact hkt hg) (by simp; omega) rfl
  have hk5 := Kept.write (p := nr) (O := O) hop4.inv (some cl5)
  rw [bind_ok hp5]
  have hkpath : Kept (sys c E u) O (⟨path, .node (mkPath d Nt), rt.tok, false⟩ :: L') s2.mem (upd (upd s3.mem nr (some cl4)) nr (some cl5)) := by
    refine (Kept.open hk3).trans (((hk4).mono ?_ (fun _ h => h)).trans (hk5.mono ?_ (fun _ h => h)))
    · intro x hx
      rcases List.mem_cons.mp hx with rfl | hx
      · simp
      · rcases List.mem_cons.mp (hsub x hx) with rfl | hx
        · simp
        · simp [hx]
    · intro x hx
      rcases List.mem_cons.mp hx with rfl | hx
      · simp
      · rcases List.mem_cons.mp (hsub x hx) with rfl | hx
        · simp
        · simp [hx]
  exact out_mono (hK _ cl5 path (ht5.trans ht4) hop5 ((Kept.open hk2).trans (Kept.from hkpath hf2)) (From.kept hkpath hf2)) (fun _ _ h => h) (fun _ h => h.elim)

/-- what a new root is -/
def Grown (c : Cfg) (E : Env Dat T) (u : Toks E.gc) (O : List Nat) (L' L : List (Ref (Val T))) (rt : Ref (Val T)) (m : Mem Dat T) (k sh : Nat) (R : Node T) (s' : St Dat T) (q : Nat × Nat) : Prop :=
  q.1 = sh ∧ Inv (sys c E u) s'.mem O (⟨q.2, .node R, k, false⟩ :: L) ∧ Kept (sys c E u) O (rt :: L') m s'.mem ∧ From (sys c E u) s'.mem q.2 rt.ptr ∧ q.2 ≠ rt.ptr

/-- a new regular root above the old one -/
theorem growI_out {rr rt : Ref (Val T)} {Nr Nt : Node T} {P : HM T Unit} {d sh : Nat} {L' : List (Ref (Val T))} (hB : 0 < c.B) (hE : E.Fresh)
    (hrr : rr.val = .node Nr) (hrt : rt.val = .node Nt) (ht : E.gc = true → own.getD 0 = k) (hkr : rr.tok = k) (hkt : rt.tok = k)
    (h : Inv (sys c E u) s.mem O (rt :: L'))
    (hP : ∀ (nr : Nat) (s1 : St Dat T) x, Inv (sys c E u) s1.mem (nr :: O) (x :: L') → Out (P s1) (fun s2 _ => Inv (sys c E u) s2.mem (nr :: O) (rr :: x :: L) ∧ Kept (sys c E u) (nr :: O) (x :: L') s1.mem s2.mem) (fun _ => False))
    (hsub : ∀ x ∈ L', x ∈ rr :: L) :
    Out (((newInner c E own 2).bind fun nr => ((makePath c E own d rt.ptr).bind fun path => P.bind fun _ => (putKid nr 0 rr.ptr).bind fun _ => (putKid nr 1 path).bind fun _ => M.ret (sh, nr)).guard (freeInner c E own nr 2)) s)
      (Grown c E u O L' L rt s.mem k sh (.inner none [Nr, mkPath d Nt])) (fun s' => Gone c E u O (rt :: L') s.mem s'.mem) := by
  have h2 := Flex.two_le_pow hB
  refine out_bind (out_mono (newInner_out hE h) (fun _ _ h => h) (fun _ he => gone_of_eq h he)) ?_
  rintro s1 nr ⟨hn, hs1⟩
  have hne : nr ≠ rt.ptr := by
    rintro rfl
    obtain ⟨cl, _, hc, _⟩ := h.look List.mem_cons_self
    rw [hc] at hn
    cases hn
  have hop := Op.new h hn 2 own
  rw [← hs1] at hop
  have hk1 : Kept (sys c E u) O (rt :: L') s.mem s1.mem := by rw [hs1]; exact Kept.new h hn _
  have htk : E.gc = true → VecHeap.tk E own = k := fun hg => (tk_gc hg).trans (ht hg)
  refine out_guard (E' := fun s' => Gone c E u (nr :: O) (rt :: L') s1.mem s'.mem) ?_ ?_
  · refine growMid_out hE hrr hrt (fun hg => (ht hg).trans hkt.symm) (fun hg => hkr.trans (htk hg).symm) (fun hg => hkt.trans (htk hg).symm) (capI_le h2) (OpG.of hop) (hP nr) hsub ?_
    intro s2 cl' pp hcl hop2 hk2 hf2
    refine ⟨rfl, ?_, hk1.trans hk2, (hop2.from (r := ⟨pp, .node (mkPath d Nt), rt.tok, false⟩) (by simp)).trans hf2, hne⟩
    exact VecHeap.retok (hop2.op.close (t := k) (fun hg => by rw [hcl]; exact htk hg)) (fun _ => rfl) false (fun h => by cases h)
  · intro s2 hg
    have hop2 := hop.mem (L' := rt :: L') hg.1 (hg.2.2 _ List.mem_cons_self)
    refine out_mono (hop2.free rfl rfl) ?_ (fun _ h => h)
    intro s3 _ hg3
    exact Gone.trans (hk1.trans (Kept.open hg.2)) hg3

/-- a new relaxed root above the old one -/
theorem growR_out {rr rt : Ref (Val T)} {Nr Nt : Node T} {P : HM T Unit} {d sh : Nat} {a b : Nat} {L' : List (Ref (Val T))} (hB : 0 < c.B) (hE : E.Fresh)
    (hrr : rr.val = .node Nr) (hrt : rt.val = .node Nt) (ht : E.gc = true → own.getD 0 = k) (hkr : rr.tok = k) (hkt : rt.tok = k)
    (h : Inv (sys c E u) s.mem O (rt :: L'))
    (hP : ∀ (O' : List Nat) (s1 : St Dat T) x, Inv (sys c E u) s1.mem (O' ++ O) (x :: L') → Out (P s1) (fun s2 _ => Inv (sys c E u) s2.mem (O' ++ O) (rr :: x :: L) ∧ Kept (sys c E u) (O' ++ O) (x :: L') s1.mem s2.mem) (fun _ => False))
    (hsub : ∀ x ∈ L', x ∈ rr :: L) :
    Out (((newInnerR c E own 2).bind fun nr => ((makePath c E own d rt.ptr).bind fun path => P.bind fun _ => (putKid nr 0 rr.ptr).bind fun _ => (putKid nr 1 path).bind fun _ =>
        (theTable nr).bind fun t => (setSizes t [a, b]).bind fun _ => M.ret (sh, nr)).guard (freeInnerR c E own nr 2)) s)
      (Grown c E u O L' L rt s.mem k sh (.inner (some [a, b]) [Nr, mkPath d Nt])) (fun s' => Gone c E u O (rt :: L') s.mem s'.mem) := by
  have h2 := Flex.two_le_pow hB
  refine out_bind (out_mono (newInnerR_out hE h) (fun _ _ h => h) (fun _ he => gone_of_eq h he)) ?_
  rintro s1 nr ⟨tb, cl, ct, hop, hT, hcl, hct, hk1, hn⟩
  have hne : nr ≠ rt.ptr := by
    rintro rfl
    obtain ⟨cl, _, hc, _⟩ := h.look List.mem_cons_self
    rw [hc] at hn
    cases hn
  have htk : E.gc = true → VecHeap.tk E own = k := fun hg => (tk_gc hg).trans (ht hg)
  refine out_guard (E' := fun s' => Gone c E u (nr :: tb :: O) (rt :: L') s1.mem s'.mem) ?_ ?_
  · refine growMid_out hE hrr hrt (fun hg => (ht hg).trans hkt.symm) (fun hg => by rw [hcl]; exact hkr.trans (htk hg).symm) (fun hg => by rw [hcl]; exact hkt.trans (htk hg).symm) (capI_le h2) hop (hP [nr, tb]) hsub ?_
    intro s2 cl' pp hcl' hop2 hk2 hf2
    have hT2 : Tb c E s2.mem tb ct (capI c E own 2) [] := hT.mem (hk2.2 _ List.mem_cons_self)
    rw [bind_ok (theTable_eq hop2.cell hop2.data), bind_ok (setSizes_eq hT2.cell hT2.data (by simpa using capI_le h2))]
    obtain ⟨hop3, _⟩ := hop2.sizes { ct with data := .table (capI c E own 2) [a, b] }
    have hT3 := hT2.set (m' := s2.mem) (ss' := [a, b]) (by simpa using capI_le h2)
    have hk3 : Kept (sys c E u) O ([rr, ⟨pp, .node (mkPath d Nt), rt.tok, false⟩] ++ L) s2.mem (upd s2.mem tb (some { ct with data := .table (capI c E own 2) [a, b] })) := by
      refine Kept.upd (O := O) hop2.inv (a := tb) (.inl (List.mem_cons_of_mem _ List.mem_cons_self)) ?_ _
      have := hop2.inv.open_nodup
      simp at this
      exact this.2.1
    have hk3' : Kept (sys c E u) O (⟨pp, .node (mkPath d Nt), rt.tok, false⟩ :: L') s2.mem (upd s2.mem tb (some { ct with data := .table (capI c E own 2) [a, b] })) := by
      refine hk3.mono ?_ (fun _ h => h)
      intro x hx
      rcases List.mem_cons.mp hx with rfl | hx
      · simp
      · rcases List.mem_cons.mp (hsub x hx) with rfl | hx
        · simp
        · simp [hx]
    refine ⟨rfl, ?_, (hk1.trans (Kept.open hk2)).trans (Kept.from hk3' hf2), (hop3.from (r := ⟨pp, .node (mkPath d Nt), rt.tok, false⟩) (by simp)).trans (From.kept hk3' hf2), hne⟩
    exact VecHeap.retok (hop3.closeT hT3 (fun _ => by rw [hcl', hcl]; exact hct) (k := k) (fun hg => by rw [hcl', hcl]; exact htk hg)) (fun _ => rfl) false (fun h => by cases h)
  · intro s2 hg
    have hop2 := hop.mem (L' := rt :: L') hg.1 (hg.2.2 _ List.mem_cons_self)
    have hT2 : Tb c E s2.mem tb ct (capI c E own 2) [] := hT.mem (hg.2.2 _ (by simp))
    refine out_mono (hop2.free hT2 (hct.trans hcl.symm) hcl rfl) ?_ (fun _ h => h)
    intro s3 _ hg3
    exact Gone.trans (hk1.trans (Kept.open (Kept.open hg.2))) hg3

/-- `push_tail` -/
theorem fcPushTail_out (hB : 0 < c.B) (hE : E.Fresh) {rt : Ref (Val T)} {s' : Nat} {R : Node T} (hp : FParts c v t pre tl) (htl : tl.length = 2 ^ c.BL)
    (hv : Flex.pushTailRoot c t.root v.shift pre.length (.leaf tl) tl.length = some (s', R)) (hrt : rt = ⟨v.tail, .node (.leaf tl), 0, false⟩) (h : Inv (sys c E u) s.mem O (rt :: L))
    (hm : (⟨v.root, .node t.root, 0, false⟩ : Ref (Val T)) ∈ L) :
    Out (Fc.pushTail c E v.root v.shift pre.length v.tail tl.length s) (Grown c E u O L L rt s.mem 0 s' R) (fun s' => Gone c E u O (rt :: L) s.mem s'.mem) := by
  have ha : At (sys c E u) s.mem (rt :: L) v.root (.node t.root) := h.at0 (List.mem_cons_of_mem _ hm) u.live0
  have haL : At (sys c E u) s.mem L v.root (.node t.root) := ⟨⟨_, hm, .here⟩, ha.den, ha.unowned⟩
  have hP : ∀ (O' : List Nat) (s1 : St Dat T) x, Inv (sys c E u) s1.mem O' (x :: L) → Out (inc E v.root s1) (fun s2 _ => Inv (sys c E u) s2.mem O' (⟨v.root, .node t.root, 0, false⟩ :: x :: L) ∧ Kept (sys c E u) O' (x :: L) s1.mem s2.mem) (fun _ => False) :=
    fun O' s1 x h1 => inc_mem h1 (List.mem_cons_of_mem _ hm) (unowned h1 (List.mem_cons_of_mem _ hm) rfl) 0
  subst hrt
  unfold Fc.pushTail
  rcases hp.grow hB htl hv with ⟨sz, Ns, d, ro, he, hlev, hf, hpt, hor⟩ | ⟨Ns, he, hor⟩
  · have hden := ha.den
    rw [he] at hden
    obtain ⟨cl, cap, r, ks, hc, hdt, _, hr, ht, _⟩ := den_inner hden
    rw [bind_ok (tableOf_eq hc hdt)]
    cases r with
    | none => cases hr
    | some tb =>
      simp only
      rw [bind_ok (sizesOf_den (ht tb rfl sz rfl)), hlev]
      refine out_bind (pushTailNewR_out (own := none) (rt := ⟨v.tail, .node (.leaf tl), 0, false⟩) hB hE htl rfl rfl (fun _ => rfl) d O s v.root _ _ ro hf (fun _ h => by cases h) hpt h haL) ?_
      intro s1 q hq
      rcases hor with ⟨n, rfl, rfl, rfl⟩ | ⟨rfl, rfl, rfl⟩
      · cases q with
        | none => exact hq.elim
        | some a => exact ⟨rfl, hq.1, hq.2.1, hq.2.2.1, hq.2.2.2⟩
      · cases q with
        | some a => exact hq.elim
        | none =>
          simp only
          have hq : Gone c E u O (⟨v.tail, .node (.leaf tl), 0, false⟩ :: L) s.mem s1.mem := hq
          refine out_mono (growR_out (own := none) (k := 0) (rr := ⟨v.root, .node t.root, 0, false⟩) (rt := ⟨v.tail, .node (.leaf tl), 0, false⟩) hB hE rfl rfl (fun _ => rfl) rfl rfl hq.1 (fun O' => hP (O' ++ O)) (fun x hx => List.mem_cons_of_mem _ hx)) ?_ ?_
          · rintro s2 q ⟨a1, a2, a3, a4, a5⟩
            exact ⟨a1, a2, hq.2.trans a3, a4, a5⟩
          · exact fun s2 hg => Gone.trans hq.2 hg
  · have hden := ha.den
    rw [he] at hden
    obtain ⟨cl, cap, r, ks, hc, hdt, _, hr, ht, _⟩ := den_inner hden
    rw [bind_ok (tableOf_eq hc hdt)]
    cases r with
    | some _ => cases hr
    | none =>
      simp only
      rcases hor with ⟨a1, rfl, rfl⟩ | ⟨a1, a2, rfl, d, a4, a5, a6, a7, a8⟩ | ⟨a1, a2, a3, rfl, a5, rfl⟩
      · rw [if_pos a1]
        exact growI_out (own := none) (k := 0) (rr := ⟨v.root, .node t.root, 0, false⟩) (rt := ⟨v.tail, .node (.leaf tl), 0, false⟩) hB hE rfl rfl (fun _ => rfl) rfl rfl h (fun nr => hP (nr :: O)) (fun x hx => List.mem_cons_of_mem _ hx)
      · rw [if_neg a1, if_pos a2, a4]
        refine out_bind (pushTailNew_out (own := none) hB hE (rt := ⟨v.tail, .node (.leaf tl), 0, false⟩) (fun _ => rfl) rfl d O s v.root _ _ _ _ a5 a6 a7 a8 h haL) ?_
        rintro s2 nr ⟨hi2, hk2, hf2, hne2⟩
        exact ⟨rfl, hi2, hk2, hf2, hne2⟩
      · rw [if_neg a1, if_neg (by rw [a2]; simp), a5]
        refine out_bind (makePath_out (own := none) hE (rt := ⟨v.tail, .node (.leaf tl), 0, false⟩) (fun _ => rfl) rfl 1 O s h) ?_
        rintro s2 nr ⟨hi2, hk2, hf2⟩
        have hat : At (sys c E u) s.mem (⟨v.tail, .node (.leaf tl), 0, false⟩ :: L) v.tail (.node (.leaf tl)) := h.at0 List.mem_cons_self u.live0
        have hd := (hat.kept hk2).den
        refine ⟨rfl, hi2, hk2, hf2, ?_⟩
        rintro rfl
        have := hd.unique (ranked c E u) (hi2.den List.mem_cons_self)
        cases this

/-- `push_tail_mut` -/
theorem fcPushTailMut_out (hB : 0 < c.B) (hE : E.Fresh) (he : E.gc = true → u.live e) {s' : Nat} {R : Node T} (hp : FParts c v t pre tl) (htl : tl.length = 2 ^ c.BL)
    (hv : Flex.pushTailRoot c t.root v.shift pre.length (.leaf tl) tl.length = some (s', R)) (h : Inv (sys c E u) s.mem O (⟨v.tail, .node (.leaf tl), e, false⟩ :: ⟨v.root, .node t.root, e, false⟩ :: L)) (hN : NoTab s.fault) :
    Out (Fc.pushTailMut c E e v.root v.shift pre.length v.tail tl.length s) (fun s1 q => q.1 = s' ∧ Inv (sys c E u) s1.mem O (⟨q.2, .node R, e, false⟩ :: L) ∧ Kept (sys c E u) O L s.mem s1.mem)
      (fun s' => Gone c E u O (⟨v.tail, .node (.leaf tl), e, false⟩ :: ⟨v.root, .node t.root, e, false⟩ :: L) s.mem s'.mem) := by
  have hden : Den (sys c E u) s.mem v.root (.node t.root) := h.den (r := ⟨v.root, .node t.root, e, false⟩) (by simp)
  have hP : ∀ (O' : List Nat) (s1 : St Dat T) x, Inv (sys c E u) s1.mem O' (x :: ⟨v.root, .node t.root, e, false⟩ :: L) →
      Out ((M.ret () : HM T Unit) s1) (fun s2 _ => Inv (sys c E u) s2.mem O' (⟨v.root, .node t.root, e, false⟩ :: x :: L) ∧ Kept (sys c E u) O' (x :: ⟨v.root, .node t.root, e, false⟩ :: L) s1.mem s2.mem) (fun _ => False) :=
    fun O' s1 x h1 => ⟨h1.permL (List.Perm.swap _ _ _), .refl⟩
  unfold Fc.pushTailMut
  rcases hp.grow hB htl hv with ⟨sz, Ns, d, ro, hN', hlev, hf, hpt, hor⟩ | ⟨Ns, hN', hor⟩
  · rw [hN'] at hden
    obtain ⟨cl, cap, r, ks, hc, hdt, _, hr, ht, _⟩ := den_inner hden
    rw [bind_ok (tableOf_eq hc hdt)]
    cases r with
    | none => cases hr
    | some tb =>
      simp only
      rw [bind_ok (sizesOf_den (ht tb rfl sz rfl)), hlev]
      refine out_bind (pushTailMutR_out (rt := ⟨v.tail, .node (.leaf tl), e, false⟩) hB hE he htl rfl rfl (fun _ => rfl) d O L s ⟨v.root, .node t.root, e, false⟩ _ _ ro hf (fun _ h => by cases h) hpt rfl (fun _ => rfl) h hN) ?_
      intro s1 q hq
      rcases hor with ⟨n, rfl, rfl, rfl⟩ | ⟨rfl, rfl, rfl⟩
      · cases q with
        | none => exact hq.elim
        | some a => exact ⟨rfl, hq⟩
      · cases q with
        | some a => exact hq.elim
        | none =>
          simp only
          have hq : Gone c E u O (⟨v.tail, .node (.leaf tl), e, false⟩ :: ⟨v.root, .node t.root, e, false⟩ :: L) s.mem s1.mem := hq
          refine out_mono (growR_out (own := some e) (k := e) (rr := ⟨v.root, .node t.root, e, false⟩) (rt := ⟨v.tail, .node (.leaf tl), e, false⟩) hB hE rfl rfl (fun _ => rfl) rfl rfl hq.1 (fun O' => hP (O' ++ O)) (fun x hx => hx)) ?_ ?_
          · rintro s2 q ⟨a1, a2, a3, a4, a5⟩
            exact ⟨a1, a2, Kept.tail (Kept.tail (hq.2.trans a3))⟩
          · exact fun s2 hg => Gone.trans hq.2 hg
  · have hden0 := hden
    rw [hN'] at hden
    obtain ⟨cl, cap, r, ks, hc, hdt, _, hr, ht, _⟩ := den_inner hden
    rw [bind_ok (tableOf_eq hc hdt)]
    cases r with
    | some _ => cases hr
    | none =>
      simp only
      rcases hor with ⟨a1, rfl, rfl⟩ | ⟨a1, a2, rfl, d, a4, a5, a6, a7, a8⟩ | ⟨a1, a2, a3, rfl, a5, rfl⟩
      · rw [if_pos a1]
        refine out_mono (growI_out (own := some e) (k := e) (rr := ⟨v.root, .node t.root, e, false⟩) (rt := ⟨v.tail, .node (.leaf tl), e, false⟩) hB hE rfl rfl (fun _ => rfl) rfl rfl h (fun nr => hP (nr :: O)) (fun x hx => hx)) ?_ (fun _ h => h)
        rintro s2 q ⟨a1, a2, a3, a4, a5⟩
        exact ⟨a1, a2, Kept.tail (Kept.tail a3)⟩
      · rw [if_neg a1, if_pos a2, a4]
        refine out_bind (pushTailMut_out hB hE he (rt := ⟨v.tail, .node (.leaf tl), e, false⟩) (fun _ => rfl) rfl d O L s ⟨v.root, .node t.root, e, false⟩ _ _ _ _ a5 a6 a7 a8 rfl (fun _ => rfl) h) ?_
        rintro s2 nr ⟨hi2, hk2⟩
        exact ⟨rfl, hi2, hk2⟩
      · rw [if_neg a1, if_neg (by rw [a2]; simp), a5]
        refine out_bind (makePath_out (own := some e) hE (rt := ⟨v.tail, .node (.leaf tl), e, false⟩) (fun _ => rfl) rfl 1 O s h) ?_
        rintro s2 nr ⟨hi2, hk2, _⟩
        refine out_bind (out_mono (decEmpty_out (r := ⟨v.root, .node t.root, e, false⟩) (by rw [a3]) (hi2.permL (List.Perm.swap _ _ _))) (fun _ _ h => h) (fun _ h => h.elim)) ?_
        intro s3 _ hg
        exact ⟨rfl, hg.1, (Kept.tail (Kept.tail hk2)).trans (Kept.tail hg.2)⟩

/-- the cases of `push_back` -/
theorem FParts.push {x : T} (hi : Is v t) (hp : FParts c v t pre tl) (h : Flex.pushBack c t x = some t') :
    (tl.length < 2 ^ c.BL ∧ t' = ⟨t.size + 1, t.shift, t.root, .leaf (tl ++ [x])⟩) ∨
    (tl.length = 2 ^ c.BL ∧ ∃ s' R, Flex.pushTailRoot c t.root v.shift pre.length (.leaf tl) tl.length = some (s', R) ∧ t' = ⟨t.size + 1, s', R, .leaf [x]⟩) := by
  have hts : t.size - pre.length = tl.length := by rw [← hi.size]; exact hp.rest
  have hle := hp.le
  have h1 : 1 ≤ 2 ^ c.BL := Nat.one_le_two_pow
  simp only [Flex.pushBack, hp.off', Option.bind_eq_bind, Option.bind_some, hts] at h
  by_cases hlt : tl.length < 2 ^ c.BL
  · left
    rw [if_pos hlt] at h
    refine ⟨hlt, ?_⟩
    simp only [Rrb.copyLeafEmplace, hp.tail, Node.leaf?, Option.bind_eq_bind, Option.bind_some, slice_all rfl] at h
    rw [Vec.mkLeaf_ok (by simp; omega)] at h
    cases h
    rfl
  · right
    rw [if_neg hlt, Vec.mkLeaf_ok (by simpa using h1)] at h
    simp only [Option.bind_some, hp.tail, ← hi.shift] at h
    refine ⟨by omega, ?_⟩
    cases hq : Flex.pushTailRoot c t.root v.shift pre.length (.leaf tl) tl.length with
    | none => rw [hq] at h; cases h
    | some q =>
      obtain ⟨s', R⟩ := q
      rw [hq] at h
      cases h
      exact ⟨s', R, rfl, rfl⟩

/-- a new leaf for the last element, given back by the handler, when no table is refused -/
theorem newTailN_out {β : Type} (hE : E.Fresh) (ho : ∀ e, own = some e → E.gc = true → e ≠ 0) {x : T} {X : Nat → HM T β} {Q : St Dat T → β → Prop} (h : Inv (sys c E u) s.mem O L) (hN : NoTab s.fault)
    (hX : ∀ s1 nt, Inv (sys c E u) s1.mem (nt :: O) L → Kept (sys c E u) O L s.mem s1.mem → s1.mem nt = some (leafCell c E own 1 [x]) → NoTab s1.fault → Out (X nt s1) Q (fun s' => Gone c E u (nt :: O) L s1.mem s'.mem)) :
    Out (((leafOf c E own x).bind fun nt => (X nt).guard (delLeaf c E nt 1)) s) Q (fun s' => Gone c E u O L s.mem s'.mem) := by
  refine out_bind (out_mono (out_noTab (calm_leafOf c E own x) hN (leafOf_out hE h)) (fun _ _ h => h) (fun _ he => gone_of_eq h he)) ?_
  rintro s1 nt ⟨⟨hn, hs1⟩, hN1⟩
  have hi1 : Inv (sys c E u) s1.mem (nt :: O) L := by rw [hs1]; exact h.alloc hn _
  have hk1 : Kept (sys c E u) O L s.mem s1.mem := by rw [hs1]; exact Kept.new h hn _
  have hc1 : s1.mem nt = some (leafCell c E own 1 [x]) := by rw [hs1]; exact upd_self
  refine out_guard (hX s1 nt hi1 hk1 hc1 hN1) ?_
  intro s2 hg
  refine out_mono (delLeaf_open (xs := [x]) (n := 1) hg.1 ((hg.2.2 _ List.mem_cons_self).trans hc1) rfl ⟨_, rfl⟩ rfl ?_) ?_ (fun _ h => h)
  · rw [leafCell_length (n := 1) (xs := [x]) (Nat.le_refl _) Nat.one_le_two_pow]
    cases own with
    | none => show leafRoom c E 1 = _; rw [show (leafCell c E none 1 [x]).tok = VecHeap.tk E none from rfl, tk_none]; simp
    | some e =>
      show 2 ^ c.BL = _
      by_cases hg : E.gc = true
      · rw [show (leafCell c E (some e) 1 [x]).tok = VecHeap.tk E (some e) from rfl, tk_gc hg, if_pos]
        simpa [hg] using ho e rfl hg
      · simp [hg, leafRoom]
  · exact fun s3 _ hg3 => Gone.trans (hk1.trans (Kept.open hg.2)) hg3

/-- `push_back_mut`; afterwards the tail may be changed in place -/
theorem fpushBackMut_mine (hB : 0 < c.B) (hE : E.Fresh) (he : E.gc = true → u.live e) {x : T} (hi : Is v t) (hv : Flex.Inv c t l) (hp : Flex.pushBack c t x = some t') (h : Inv (sys c E u) s.mem O (refs v t e ++ L)) (hN : NoTab s.fault) :
    Out (Fc.pushBackMut c E e v x s) (fun s' v' => Made c E u O L s.mem t' e s' v' ∧ Mine E s'.mem e v') (fun s' => Gone c E u O (refs v t e ++ L) s.mem s'.mem) := by
  obtain ⟨pre, tl, rfl, hpt⟩ := fparts hB hi hv
  have hoff : ∀ {s1 : St Dat T}, Den (sys c E u) s1.mem v.root (.node t.root) → Fc.off c v s1 = .ok s1 pre.length := fun hd => off_eq hpt hi hd
  have hden : Den (sys c E u) s.mem v.root (.node t.root) := h.den (r := ⟨v.root, .node t.root, e, false⟩) (by simp [refs])
  unfold Fc.pushBackMut
  rw [bind_ok (hoff hden), hpt.rest]
  have hsw : (refs v t e ++ L).Perm (⟨v.tail, .node t.tail, e, false⟩ :: ⟨v.root, .node t.root, e, false⟩ :: L) := List.Perm.swap _ _ _
  have h' := h.permL hsw
  rw [hpt.tail] at h' hsw
  rcases hpt.push hi hp with ⟨h1, rfl⟩ | ⟨h1, s', R, h2, rfl⟩
  · rw [if_pos h1]
    refine out_bind (out_mono (mutableTail_out hE he rfl (by omega) h') (fun _ _ h => h) (fun _ hg => Gone.permL hg hsw.symm)) ?_
    rintro s1 v' ⟨q, cl, rfl, ho, hk⟩
    obtain ⟨hraw, hel⟩ := ho.els.push (by rw [ho.len]; exact h1) x
    refine out_bind (Q := fun s' _ => s' = _) (by rw [show (({ v with tail := q } : Vc).size - pre.length) = tl.length from hpt.rest, construct_eq ho.cell hraw]; rfl) ?_
    rintro s2 _ rfl
    refine ⟨⟨⟨by simp [hi.size], hi.shift⟩, (ho.put hel (by simpa using ho.len)).permL (List.Perm.swap _ _ _), ?_⟩, ?_⟩
    · exact (Kept.tail hk).trans (Kept.tail (Kept.write ho.inv _))
    · exact ⟨_, upd_self, mutable_intro ho.rc ho.tok⟩
  · rw [if_neg (by omega)]
    refine out_mono (newTailN_out (own := some e) (Q := fun s'' v' => Made c E u O L s.mem ⟨t.size + 1, s', R, .leaf [x]⟩ e s'' v' ∧ Mine E s''.mem e v') hE (fun _ h hg h0 => by cases h; subst h0; exact u.live0 (he hg)) h' hN ?_) (fun _ _ h => h) (fun _ hg => Gone.permL hg hsw.symm)
    intro s1 nt hi1 hk1 hc1 hN1
    refine out_bind (fcPushTailMut_out hB hE he hpt h1 h2 hi1 hN1) ?_
    rintro s2 ⟨sh, nr⟩ ⟨rfl, hi2, hk2⟩
    refine ⟨⟨⟨by rw [hi.size], rfl⟩, ?_, (Kept.tail (Kept.tail hk1)).trans (Kept.open hk2)⟩, _, (hk2.2 _ List.mem_cons_self).trans hc1, mutable_intro (fun _ => rfl) (fun hg => tk_gc hg)⟩
    exact (close_tail hi2 ((hk2.2 _ List.mem_cons_self).trans hc1) (fun _ => rfl)).permL (List.Perm.swap _ _ _)

theorem fpushBackMut_out (hB : 0 < c.B) (hE : E.Fresh) (he : E.gc = true → u.live e) {x : T} (hi : Is v t) (hv : Flex.Inv c t l) (hp : Flex.pushBack c t x = some t') (h : Inv (sys c E u) s.mem O (refs v t e ++ L)) (hN : NoTab s.fault) :
    Out (Fc.pushBackMut c E e v x s) (Made c E u O L s.mem t' e) (fun s' => Gone c E u O (refs v t e ++ L) s.mem s'.mem) :=
  out_mono (fpushBackMut_mine hB hE he hi hv hp h hN) (fun _ _ h => h.1) (fun _ h => h)

/-- `push_back` -/
theorem fpushBack_out (hB : 0 < c.B) (hE : E.Fresh) {x : T} (hi : Is v t) (hv : Flex.Inv c t l) (hp : Flex.pushBack c t x = some t') (h : Inv (sys c E u) s.mem O (refs v t 0 ++ L)) :
    Out (Fc.pushBack c E v x s) (Made c E u O (refs v t 0 ++ L) s.mem t' 0) (fun s' => Gone c E u O (refs v t 0 ++ L) s.mem s'.mem) := by
  obtain ⟨pre, tl, rfl, hpt⟩ := fparts hB hi hv
  obtain ⟨har, hat⟩ := refs_ok h (v := v) (t := t) (fun r hr => List.mem_append_left _ hr)
  unfold Fc.pushBack
  rw [bind_ok (off_eq hpt hi har.den), hpt.rest]
  rcases hpt.push hi hp with ⟨h1, rfl⟩ | ⟨h1, s', R, h2, rfl⟩
  · rw [if_pos h1]
    rw [hpt.tail] at hat
    refine out_bind (copyLeafEmplace_out (x := x) hE h hat rfl h1) ?_
    rintro s1 q ⟨hi1, hk1⟩
    have hm : (⟨v.root, .node t.root, 0, false⟩ : Ref (Val T)) ∈ ⟨q, .node (.leaf (tl ++ [x])), 0, false⟩ :: (refs v t 0 ++ L) := by simp [refs]
    have hi1 := VecHeap.retok hi1 (t' := 0) (fun _ => rfl) false (fun h => by cases h)
    refine out_bind (out_mono (inc_mem hi1 hm (unowned hi1 hm rfl) 0) (fun _ _ h => h) (fun _ h => h.elim)) ?_
    rintro s2 _ ⟨hi2, hk2⟩
    exact ⟨⟨by simp [hi.size], hi.shift⟩, hi2, hk1.trans (Kept.tail hk2)⟩
  · rw [if_neg (by omega)]
    have hsw : (refs v t 0 ++ L).Perm (⟨v.tail, .node (.leaf tl), 0, false⟩ :: ⟨v.root, .node t.root, 0, false⟩ :: L) := by rw [← hpt.tail]; exact List.Perm.swap _ _ _
    have h' := h.permL hsw
    refine out_mono (newTail_out (own := none) (Q := Made c E u O (refs v t 0 ++ L) s.mem ⟨t.size + 1, s', R, .leaf [x]⟩ 0) hE (fun _ h => by cases h) h' ?_) (fun _ _ h => h) (fun _ hg => Gone.permL hg hsw.symm)
    intro s1 nt hi1 hk1 hc1
    have hat1 := (hat.mono (fun r hr => hsw.mem_iff.mp hr)).kept hk1
    rw [hpt.tail] at hat1
    refine out_bind (fcPushTail_out hB hE hpt h1 h2 rfl hi1 List.mem_cons_self) ?_
    rintro s2 ⟨sh, nr⟩ ⟨rfl, hi2, hk2, hf2, hne2⟩
    obtain ⟨b3, b4⟩ := restore (L2 := ⟨nr, .node R, 0, false⟩ :: ⟨v.root, .node t.root, 0, false⟩ :: L) hat1 hk2 hf2 hne2.symm List.mem_cons_self rfl
    refine out_bind (out_mono (inc_ref hi2 b3 b4 0) (fun _ _ h => h) (fun _ h => h.elim)) ?_
    rintro s3 _ ⟨hi3, hk3⟩
    have hk23 := hk2.trans (Kept.from (rt := ⟨v.tail, .node (.leaf tl), 0, false⟩) hk3 hf2)
    refine ⟨⟨by rw [hi.size], rfl⟩, ?_, Kept.permL (hk1.trans (Kept.open hk23)) hsw.symm⟩
    unfold refs
    rw [hpt.tail]
    exact (close_tail (hi3.permL ((List.Perm.swap _ _ _).cons _)) ((hk23.2 _ List.mem_cons_self).trans hc1) (fun _ => rfl)).permL (perm4 _ _ _ _ _)
end
end FlexHeap
