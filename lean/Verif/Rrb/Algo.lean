import Verif.Rrb.ChunkSpec

/-!
# Model of the sequence algorithms of `immer/algorithm.hpp`

Each calls `for_each_chunk` or `for_each_chunk_p` of the container; `v` stands for that member function, already
applied to the container (and range).  Function objects may carry state `σ`.
-/

namespace Rrb

variable {T : Type}

/-- a chunk visiting member function of a container -/
abbrev ChunkFn (T : Type) := ∀ {σ : Type}, (List T → σ → Bool × σ) → σ → Option (Bool × σ)

/-- `v` calls its function on consecutive chunks (possibly empty) of `l` in order, until it returns false -/
def Visits (l : List T) (v : ChunkFn T) : Prop :=
  ∃ chs : List (List T), chs.flatten = l ∧ ∀ {σ : Type} (fn : List T → σ → Bool × σ) (s : σ), v fn s = some (runP fn chs s)

theorem Chunks.visits {l : List T} {v : ChunkFn T} (h : Chunks l v) : Visits l v := by
  obtain ⟨chs, h1, -, h2⟩ := h; exact ⟨chs, h1, h2⟩

namespace Algo

/-- `accumulate` (algorithm.hpp 118-160) with `detail::accumulate_move` (95-111) -/
def accumulate {σ : Type} (v : ChunkFn T) (init : σ) (op : σ → T → σ) : Option σ :=
  (v (fun ch s => (true, ch.foldl op s)) init).map (·.2)

/-- `for_each` (162-187); `fn` acts on a state -/
def forEach {σ : Type} (v : ChunkFn T) (fn : T → σ → σ) (s : σ) : Option σ :=
  (v (fun ch s => (true, ch.foldl (fun s x => fn x s) s)) s).map (·.2)

/-- `copy` (189-213): `out` is the sequence written so far -/
def copy (v : ChunkFn T) (out : List T) : Option (List T) :=
  (v (fun ch out => (true, out ++ ch)) out).map (·.2)

/-- `std::all_of` with a predicate that may have state -/
def stdAllOf {σ : Type} (p : T → σ → Bool × σ) : List T → σ → Bool × σ
  | [], s => (true, s)
  | x :: xs, s => if (p x s).1 then stdAllOf p xs (p x s).2 else (false, (p x s).2)

/-- `all_of` (215-234) -/
def allOf {σ : Type} (v : ChunkFn T) (p : T → σ → Bool × σ) (s : σ) : Option (Bool × σ) :=
  v (stdAllOf p) s

theorem accumulate_spec {l : List T} {v : ChunkFn T} (h : Visits l v) {σ : Type} (init : σ) (op : σ → T → σ) :
    accumulate v init op = some (l.foldl op init) := by
  obtain ⟨chs, rfl, hv⟩ := h
  simp only [accumulate, hv, Option.map_some, Option.some.injEq]
  clear hv
  induction chs generalizing init with
  | nil => rfl
  | cons x xs ih => simp [runP, ih, List.foldl_append]

theorem forEach_spec {l : List T} {v : ChunkFn T} (h : Visits l v) {σ : Type} (fn : T → σ → σ) (s : σ) :
    forEach v fn s = some (l.foldl (fun s x => fn x s) s) := accumulate_spec h s (fun s x => fn x s)

theorem copy_spec {l : List T} {v : ChunkFn T} (h : Visits l v) (out : List T) :
    copy v out = some (out ++ l) := by
  obtain ⟨chs, rfl, hv⟩ := h
  simp only [copy, hv, Option.map_some, Option.some.injEq]
  clear hv
  induction chs generalizing out with
  | nil => simp [runP]
  | cons x xs ih => simp [runP, ih]

theorem stdAllOf_append {σ : Type} (p : T → σ → Bool × σ) (a b : List T) (s : σ) :
    stdAllOf p (a ++ b) s = if (stdAllOf p a s).1 then stdAllOf p b (stdAllOf p a s).2
      else (false, (stdAllOf p a s).2) := by
  induction a generalizing s with
  | nil => simp [stdAllOf]
  | cons x xs ih =>
    simp only [List.cons_append, stdAllOf]
    split
    · exact ih _
    · simp

theorem allOf_spec {l : List T} {v : ChunkFn T} (h : Visits l v) {σ : Type} (p : T → σ → Bool × σ) (s : σ) :
    allOf v p s = some (stdAllOf p l s) := by
  obtain ⟨chs, rfl, hv⟩ := h
  simp only [allOf, hv, Option.some.injEq]
  clear hv
  induction chs generalizing s with
  | nil => rfl
  | cons x xs ih =>
    simp only [runP, List.flatten_cons, stdAllOf_append]
    split
    · exact ih _
    · rfl

end Algo
end Rrb
