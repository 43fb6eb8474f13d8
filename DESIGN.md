# Formal model of immer: design

Target: `arximboldi/immer` at the commit in `/repo`. Proof assistant: Lean 4.33.0 + Mathlib.
All Lean sources live in `lean/Verif/`. The properties are listed in `properties.jsonl`,
the theorems that claim them in `MANIFEST.json`, mutation experiments in `seeded/LOG.jsonl`.

## Modelling conventions

* **Functions, not relations.** Each C++ function in scope becomes a total, computable Lean
  function with a comment citing file and lines. Template parameters (`B`, `BL`, `T`, `Hash`,
  `Equal`) become Lean parameters; nothing is fixed to the default instantiation.
* **Undefined behaviour is an outcome.** Every array access, every union access (inner vs
  collision vs leaf), every `IMMER_UNREACHABLE` is a step that can yield `none` (= undefined
  behaviour). Correctness theorems say the result is `some _`, so they include absence of UB
  at the modelled level of detail.
* **Exceptions thrown by the API** (`std::out_of_range`) are a separate outcome (`throw`).
* **Numbers.** `size_t`/`count_t` are unbounded `Nat` except in the theorems that are about
  wrap-around (C09, C21, C30 growth policy), where `BitVec`/explicit modulus is used.
* **Memory.** Two levels: (1) a *value level* where a node is an inductive tree; persistent
  (const) operations are modelled here; (2) a *heap level* where nodes are cells with addresses
  and reference counts; in-place (`*_mut`) operations and reference counting are modelled here.
  A representation relation ties level 2 to level 1.
* **Concurrency.** Small-step interleaving semantics over a shared state with sequentially
  consistent atomics; any number of threads (`Conc/*`). `Threads/*` has happens-before and loads of out-of-date counts
  in addition; other effects of weak memory are not modelled.
* **Specifications** are in separate `*Spec.lean` files and use only core `List`, `Nat`, and
  functions `K → Option T`. Property theorems live in `*Props.lean` files, each next to an
  `example` exhibiting a non-trivial instance of its hypotheses.

## Plan per property

| id | what is modelled | how it is proved |
|----|------------------|------------------|
| C01 | `champ::get/add/update/update_if_exists/sub` and the `node` helpers they call, over a tree type with bitmaps (`BitVec`), value arrays and child arrays | trie invariant by induction on depth; refinement of every operation to `K → Option T`; lifted to operation sequences by induction |
| C02 | the `size` field updates in `add/update/sub` | invariant `size = number of elements`, induction on operation sequence |
| C03 | `champ_iterator` (path array, cursor), `for_each_chunk_traversal` | iterator stepping refines a list zipper; elements nodup by key from the trie invariant |
| C04 | same as C01, hash is an arbitrary function | C01 is stated for every hash function; explicit corollary for constant hash |
| C05 | `equals_tree/equals_values/equals_collisions` | canonicity: two tries satisfying the invariant with the same lookup function are equal up to permutation inside collision nodes |
| C06 | `diff` and helpers | structural induction on pairs of tries; result compared with set difference of contents |
| C07 | `do_sub` with `sub_result` | invariant "non-root subtrees have ≥ 2 elements" preserved by all operations |
| C08 | `from_range` | fold over list of `add_mut` (value level: `add`) |
| C09 | `popcount_fallback` (both widths), `set_bits_range` on `BitVec` | SWAR argument lifted from byte lemmas; induction on number of set bits |
| C10 | `rbtree::{push_back,get,update,take}` and the visitors and positions they instantiate | radix tree invariant by induction on height; refinement to `List` |
| C11 | `get_check` of each container, map `at` | case split, on top of C01/C10/C13/C28 |
| C12 | `rrbtree::concat`, `concat_trees`, `concat_center_pos`, plan, merger | refinement to `++`, invariant preservation |
| C13 | `rrbtree::{take,drop,push_back}`, `slice_*_visitor`, flex_vector derived operations | refinement to `List.take/drop/...` |
| C14 | `relaxed_pos::index`, descents | prefix-sum invariant |
| C15 | `concat_rebalance_plan::{fill,shuffle}` on an array of fixed size with bounds-checked accesses | loop invariants |
| C16 | `rbtree::equals`, `equals_visitor` on regular positions | induction on height |
| C17 | `rrbtree::equals` | **code violates it**: concrete witness by evaluation; partial theorem for the cases that work |
| C18 | `for_each_chunk*` visitors | induction on height |
| C19 | both iterators with their caches | invariant on cache; induction on movement sequence |
| C20 | height of the trees after each operation vs the six-level switch | logarithmic bound for `vector`; flex_vector violated (witness for small B) or recorded as partial |
| C21 | the 32-bit shifts at the cited lines, as modular arithmetic | witness that they differ from the exact value; theorem for sizes below 2^32 |
| C22–C24 | heap level CHAMP: cells with reference counts, `do_*_mut`, `move_inner_*`, `ensure_mutable_values`, `delete_*` | counting invariant (count = number of references), representation relation, frame lemma "cells with a foreign reference are never written" |
| C25 | heap level radix tree: `push_back_mut`, `update_mut`, `take_mut` | same framework |
| C26 | `concat_mut_r` vs `concat_mut_lr_r` tail-only branch on the heap level | **code violates it**: witness; partial theorem for the other entry points |
| C27 | `owner/ownee/edit` tokens | invariant "a node's token is held by at most one transient and by nobody after persistent()" by induction on histories |
| C28, C30 | `with_capacity`, `no_capacity` | refinement to `List`; potential argument |
| C29 | object lifetime bookkeeping of `with_capacity` | **code violates it** in `take_mut`: witness; partial theorem for the rest |
| C31 | `refcount_atom_impl`, `gc_atom_impl` | interleaving semantics, linearization by ghost log |
| C32 | spinlock | interleaving invariant |
| C33 | `refcount_policy` | interleaving invariant counting held references |
| C34 | `unsafe_free_list_heap`, `free_list_heap` | invariant for the sequential list; **lock-free version violates it** (ABA witness schedule) |
| C35 | `split_heap`, `with_data`, `debug_size_heap` | round-trip lemmas |
| C36 | construct/destroy traces of node helpers with fault points | induction over arrays; **`copy_collision_replace` violates it** (witness) |
| C37 | persistent operations with failing steps | at value level existing containers are immutable, so value preservation is immediate; leak-freedom via the heap level traces |
| C38 | `box` holder cells with counts | invariant over histories |
| C39 | identity = root address(es) | heap level representation relation is functional |
| C40 | `do_update`, `do_update_if_exists` with a call log for `f` | refinement |
| C41 | `do_*_mut` of `champ` with failing steps, heap level | **code violates it** (witness) |
| C42 | vectors on the heap level with failing steps | as C25: one invariant for all outcomes of a call |
| C45, C46 | concatenation on the heap level, as new vector and in place | as C43; the merger writes through a cursor: invariant that relates the partial result to the plan |
| C43, C44 | heap level relaxed radix tree: persistent and in-place `push_back`, `update`, `take`, `drop`, with size tables as objects of their own | each operation on memory computes the one on values (`Rrb/Flex`), then as C25; **code violates both** (witnesses), partial theorems for the rest |
| C47 | `insert`, `erase` and the like of `flex_vector` as composed calls on the heap level | from C43 and C45, with what is destroyed when one of the calls throws |
| C48 | vectors with threads, one access to memory at a time | rely-guarantee invariant, happens-before as a set of accesses known |
| C49 | number of allocations and copies: the fault counter of the heap models counts them | bounds for each definition, composed by a rule for `bind` |
| C53 | operations in place that follow each other: what the first leaves behind | the post-condition of operations in place says that all nodes on the way to the element may be changed by the object; a bound for programs that start there |
| C50 | allocations made by concatenation | the merger pays for nodes from a potential: entries of the plan still to be filled and parents still to be made; the same potential pays for the merger that uses nodes again under the collector (`CostGc.lean`), where a node that is used again needs at most a table; tables for nodes that `push_tail_mut` changes in place are counted apart (`CostTables.lean`), one for each level at most |
| C55 | allocations of `push_front`, `insert`, `erase` | a bound on the levels of each vector, known before and after each part (`Deep`); the costs of the parts (C49, C50) are added along the list of parts |
| C56 | iterators and reverse iterators, all operators, on machine words | a program over iterators simulates one over positions (`Sits`); the words never wrap below `2^63` (`Word.*_spec`), the caches stay right (`OK`) |
| C57 | tokens that the collector gives out again | memory that cannot be reached is put aside in the invariant (`inv_grow`), so a token that nothing in reach has is as good as a new one; nodes of vectors have no size tables (`plain_below`) |
| C51, C52 | `dvektor`: nodes in memory, the display, operations and iterators | what is found below each node of the display, except on the way to the focus; nodes only point to older ones; **code violates both** (theorems for all sizes concerned) |

## What is modelled

All paths are relative to `immer/` in `/repo`; every definition in the Lean files cites the lines it models.

| Lean | C++ | level |
|------|-----|-------|
| `Champ/Model`, `Champ/Api` | `detail/hamts/champ.hpp` get, add, update, update_if_exists, sub, equals; `detail/hamts/node.hpp` copying helpers, `make_merged`; `map.hpp`, `set.hpp`, `table.hpp` wrappers | values (trees) |
| `Champ/Bits` | `detail/hamts/bits.hpp` | bit vectors |
| `Champ/Iter`, `Champ/Diff` | `champ_iterator.hpp`; `champ.hpp` diff | values |
| `Rrb/Pos`, `Rrb/Visit`, `Rrb/Vec` | `detail/rbts/position.hpp`, visitors of `operations.hpp`, `rbtree.hpp`, `rbtree_iterator.hpp`, persistent operations | values |
| `Rrb/Concat`, `Rrb/Flex` | `operations.hpp` 1461-2004, `rrbtree.hpp`, `rrbtree_iterator.hpp`, persistent operations | values |
| `Rrb/Facade` | `detail/iterator_facade.hpp`, all operators, with the core of `rbtree_iterator.hpp` and `rrbtree_iterator.hpp` on 64-bit words; `rbegin`, `rend` | values, machine words |
| `Rrb/Algo` | `algorithm.hpp` accumulate, for_each, all_of, … over chunks | values |
| `Array/*` | `detail/arrays/{node,with_capacity}.hpp`, `array.hpp`, `array_transient.hpp`, reference counting | memory |
| `Array/Gc*` | `detail/arrays/{node,no_capacity,with_capacity}.hpp`, `array.hpp`, `array_transient.hpp`, `gc_transience_policy.hpp`: no reference counts, tokens, a collector that releases unreachable nodes at any time | memory |
| `Box` | `box.hpp` | memory |
| `Heap/*` | `heap/*.hpp` adaptors, sequential | memory |
| `Conc/*` | `lock/spinlock_policy.hpp`, `refcount/refcount_policy.hpp`, `atom.hpp`, `heap/free_list_heap.hpp` | interleavings |
| `Mem/*` | memory of counted / owned nodes (common to what follows) | memory |
| `ChampHeap/Model` | `node.hpp` and `champ.hpp` again, on memory: copying helpers with their catch blocks, `move_inner_*`, `ensure_mutable_values`, `delete_*`, `do_add`, `do_add_mut`, `do_update*`, `do_sub`, `do_sub_mut` | memory, reference counting and collector |
| `VecHeap/Model` | `detail/rbts/node.hpp`, the visitors of `detail/rbts/operations.hpp` for regular positions (`push_tail*`, `update*`, `slice_right*`, `dec*`, `get_mut`), `rbtree.hpp`, on memory, with their catch blocks, persistent and in place | memory, reference counting and collector |
| `VecHeap/Api` | `vector` and `vector_transient` objects: constructors, assignments, destructors, `transient`, `persistent`, operations on values, rvalues and transients | memory |
| `FlexHeap/Model`, `FlexHeap/Api` | the visitors of `operations.hpp` for relaxed positions (`push_tail*`, `update*`, `slice_right*`, `slice_left*`, `dec*`, `get_mut`), `rrbtree.hpp` `push_back*`, `update`, `get_mut`, `take*`, `drop*`, on memory, persistent and in place; `flex_vector` and `flex_vector_transient` objects; `embed_relaxed = false` | memory, reference counting and collector |
| `VecHeap/Tokens`, `ChampHeap/Tokens`, `Array/GcTokens` | `make_token_` of `gc_transience_policy.hpp` returning an address that was a token before; which size tables are allocated with `norefs_tag` is not modelled: `Lost` ignores the tokens of all of them | memory |
| `ChampHeap/Api` | container objects: constructors, assignments, destructors, `transient`, `persistent`, operations on values, rvalues and transients; owner tokens of `transience/*.hpp` | memory |
| `Dv/Model` | `experimental/detail/dvektor_impl.hpp`, all of it; nodes are never freed, nothing throws | memory |

Not modelled: `detail/rbts` in-place operations other than those listed, the
python/guile bindings, iterator category plumbing, compile-time policy
selection, `IMMER_TAGGED_NODE`/`enforce` debug machinery, weak memory orderings, the C++ object model below the level of "slot is raw /
live / moved-from".

## Memory models

`Mem/Cells.lean`: memory is a partial map from addresses to cells with a count, an owner token, an array of element slots and
pointers. All of the following are *undefined*: access to a cell that is not allocated, to a slot without an object, constructing over
an object, releasing memory that still has objects in it or with another size than it was allocated with, count below zero. The
allocator is an arbitrary function that returns free addresses. A call carries an optional fault `(kind, n)`: the n-th allocation /
element copy / user function call throws; moves never throw. Counts are natural numbers (see `C33_overflow` for 32 bits).

`Mem/Ghost.lean` has the invariant (`Inv`): exact counts with reference counting; under the collector, a node with the token of a
transient in use has at most one reference, from a node with the same token or from that transient. `ChampHeap/Sound.lean` puts all
objects of a program together; `ChampHeap/World.lean` shows that every call preserves this and simulates `ChampHeap/Spec.lean`. The
theorems in `ChampHeap/Props.lean` do not mention the invariant: they read memory back (`readN`, `find`) and count references.

`VecHeap/*` does the same for vectors; `VecHeap/Sound.lean` says what is needed of the operations of a container with a root and a
tail (`Laws`), and `Sound`, `World`, `Progs` hold for every such container. `VecHeap/Spec.lean` is what programs should do,
`VecHeap/Props.lean` reads memory back (`contents`, `look`, `NodeOf`, `Exact`). Here in-place operations may throw, too. The only
restrictions (`Allowed` in `VecHeap/Spec.lean`) are that indices are in range and that under the collector a transient that was moved
from is only assigned to or destroyed (F11).

`FlexHeap/*` does it for flexible vectors. `FlexHeap/Ops*.lean` show that each operation on memory does what the one of `Rrb/Flex`
does on trees; `flex_laws` puts that into `Laws`, so that all of `World` and `Progs` applies. Conditions that depend on the
representation or on what throws are in `Spec.Terms`: none for vectors (but for reading, F4); for flexible vectors `flexTerms`, which
exclude F4 for reading, F5 and F23 for `drop`, and F24 for `push_back` and `take` in place.

`FlexHeap/Concat`, `FlexHeap/ConcatMut`: concatenation on memory, of values, rvalues and transients (`l + r`, `append`, `prepend`,
with lvalues and rvalues on either side). `FlexHeap/Bin` and `FlexHeap/Programs` prove programs with these (C45, C46, C26). The
conditions on a concatenation are `binOn`; they exclude F2 (`prepend` of an rvalue with a full tail), F5, F8, F24 and F25.
`FlexHeap/ConcatGc` is a model of concatenation in place under the collector (`concat_trees_mut`, `concat_merger_mut`).
`FlexHeap/Frame`, `FlexHeap/FrameGc` and `FlexHeap/GcOthers` prove that it changes no node of any other object (C54): `Shut` are the
nodes that have the token of neither transient, `Fr` says that a function leaves them as they are. This covers calls that throw, and
needs no claim on what the trees look like on the way. That the result has the elements it should is not proved (it agreed with lists
in a few thousand random programs), nor that the call is defined; C54 is about calls that return or throw.
`FlexHeap/Grown`, `GrownGc` and the `Owned` files carry this on to calls that follow each other. The invariant (`OwnG`) is that a node
with the token of a transient, or one that a transient may get, is in no other object; `Gr` says that the nodes of what a function
returns are new, or were there, or have an allowed token. All operations of one object and all joins of transients keep it
(`own_step`, `Gc.own_join`), without any claim on what is in the nodes, so that `FlexHeap/GcSequences` has C54 for programs in which
joins, operations of one object and concatenations of values follow each other (`GReached`; `FramePlus`, `GrownPlus` and `OwnedPlus`
are about `+`). After the first join, a program may go on after a call that threw if it is one that changes no object (`clean`, and
`+`); after an operation in place that threw, nothing is known about the nodes of its own transient. Not modelled: appending a transient to itself, which the code asserts is not done (rrbtree.hpp 786, 912, 1054, 1190).

`FlexHeap/Insert`: `push_front`, `insert` and `erase` on memory, made of the calls above; a fault counts through all the parts, and
what they made is destroyed when one throws (C47). `EditOn` says that each part can be relied on; `FlexHeap/InsertOk` shows that
this is so if nothing throws and the vectors are not too large (F5).

Restrictions of C22-C24, C27 for maps and sets (definition `Allowed` in `ChampHeap/Spec.lean`): in-place operations do not throw (false otherwise, F22);
a copy does not throw while one of several elements with equal hashes is replaced (false otherwise, F7); under the collector a
transient that was moved from is only assigned to or destroyed (F11: it keeps its token).

## Threads

`Threads/*` (C48): `n` threads with vectors whose references are counted. `Threads/Model` is the code of `vector` once more, now as
trees of single accesses to memory (`Threads/Prog`), as the memory models above run a command at once. `Threads/Machine` lets the
threads make these accesses in any order. An access has a number; `know` of a thread is the set of accesses that happen before its
next one: its own, what it acquired through counts (`dec` is acq_rel, `inc` relaxed, the load in `unique` acquires what was
released up to the value it sees) and through the pool that passes vectors on. A race is an access with a conflicting earlier one that is not known.
`hist` has all values of each count: the load in `unique` may see any of them that is not older than one set by an access that
happens before it (`World.Step.load`), which is what C++ says of loads at least; `inc` and `dec` are read-modify-write and see the last.

The proof: `Threads/Logic` has rules for programs whose memory others may change meanwhile, so long as they respect `Mem`'s
invariant (`Safe`); `Nodes`, `Visit`, `Ops` prove the code with them; `Order` is the invariant about what is known (each access to a
node is known to someone that can reach the node, or was released through the count of something above it; writes are known to
all that can reach it); `Recent` shows that a 1 that a load may see is the last value of the count (`C48_unique_current`); `Run` puts it together for all reachable worlds.

Simplified: plain accesses are to all of a node at once (which only makes more races); there are no exceptions, transients or `take`;
`malloc` and `free` synchronise.

## Cost

`Mem/Cost` (C49): the heap models have a counter that makes the event number `n` of a kind throw. `Uses kd k x` says that `x` brings
it down by at most `k`, and so makes at most `k` events of that kind: allocations, copies of elements, calls of functions given
by the user, size tables of nodes changed in place; and that otherwise it ends as it does when nothing is to throw. `VecHeap/Cost`,
`FlexHeap/Cost` and `ChampHeap/Cost` have a bound for each definition, whatever is in memory, `CostWorld` for calls. `CostProps` puts them together with what is known of objects that programs can make: calls
are never undefined, and the depth of a vector is the least for its size. How many elements of a leaf a flexible vector
copies is read from tables in memory; `Mem/Keep`, `FlexHeap/Keep` and `FlexHeap/CostCopies` therefore show that no leaf ever has more than `2^BL`. What reading and comparing costs is not counted, and
neither are changes of reference counts.

`VecHeap/InPlace` and `FlexHeap/InPlace` (C53) use bounds for one state of memory (`Spent`) instead of all: `getMut_path` and `pushBackMut_mine`
say that after an operation in place the nodes on the way (`Path`) or the tail (`Mine`) have one reference, or the owner's token;
`spent_path` and `spent_push` that an operation that finds such nodes allocates and copies nothing.

## Disagreements between code and property found

Proved with a witness, unless marked *(reading)*.

* F1 (C17) `rrbtree::equals` (rrbtree.hpp 283-331) ignores the left operand's tree when the right operand is tail-only; and compares
  nodes at the wrong offset when one tree is higher.
* F2 (C26) `concat_mut_lr_r` (rrbtree.hpp 1201-1208) lacks the `l.tail->inc()` that the sibling functions have
  (`C26_fails`).
* F3 (C29) `with_capacity::take_mut` destroys `[size, 2*size-sz)` instead of `[sz, size)`.
* F4 (C20) trees can become taller than the six levels handled by the unrolled descent.
* F5 (C21) `position.hpp:657` and `:873` shift 32-bit values.
* F6 (C34) `free_list_heap` pop: ABA, and reads released memory.
* F7 (C36, C37) `copy_collision_replace` (hamts/node.hpp 490-520) destroys an element that is not there when a copy throws.
* F8 `rrbtree.hpp` 830, 1108: the catch path destroys elements of `r.tail` instead of those put in `l.tail`
  (`append_throws_fails`).
* F9 `rbts/node.hpp` 883/910/935: deallocation with a size of the wrong kind of node *(reading)*.
* F11, F21 moving from a transient under the collector keeps the token: two transients with the same token *(reading; excluded in the
  theorems)*. For arrays, `Array/GcMain.lean` has an example: `set` on a transient after `std::move(t).persistent()` changes the array.
* F12, F13, F14, F15, F16 smaller remarks: `no_capacity::data_mut` does not `dec`; `first_sub_inner` with `is_full`; `1 << idx`
  in debug checks; a moved-from box is null; `update` replaces the stored key by an equal one
  *(reading)*. (F19 is now F32.)
* F17 `concat_merger_mut` aborts the program when an allocation throws *(reading)*.
* F20 (C33) the 32-bit count overflows.
* F22 (C41) `do_sub_mut` deletes a child and then may throw while the parent still points to it.
* F23 (C43) in-place `drop` at the start of a leaf move-assigns each element of the leaf to itself (operations.hpp 1386), which is
  not required to keep the value of, say, a `std::vector`.
* F24 (C44) in-place `take` and `push_back` on a relaxed node copy a shared table of sizes after the child has been changed
  (operations.hpp 707, 933, 965): when that allocation throws, the node still has the old child, which has been released.
* F25 under the collector, `concat_merger::abort` (operations.hpp 1692-1702) gives a leaf back with another size than it was
  allocated with, if the copy of an element throws (`concat_abort_size_fails`).
* F26 *(reading)* `erase(pos, lpos) &&` (flex_vector.hpp 487-495) returns `decltype(auto)` with two `return`s that have different
  types when functions of rvalues make new vectors (memory policies with a collector): it does not compile where it is used.
* F27 under the collector, `assoc_mut` (with_capacity.hpp 246) copies with `copy_n`, not `copy_e`: the copy does not get the token, so
  that each `set` on such a transient copies all elements (`gc_set_never_owns`). The results are right.
* F28 (C51) the loop of `goto_fresh_pos_writable_from_clean` of `dvektor` (dvektor_impl.hpp 273-278) does not decrement `shift`: `push_back`
  of a new leaf into a vector with more than `2^(3B)` elements whose focus is elsewhere replaces inner nodes by empty ones. With the
  default of 5 bits: push 32800 elements, update the first, push another; `v[32768]` then dereferences a null pointer (`C51_fails`).
* F29 (C52) incrementing an iterator of `dvektor` past the last element when the size is a multiple of `2^B` dereferences a null pointer
  (dvektor_impl.hpp 457-460): a loop over a vector of 32 elements has undefined behaviour (`C52_end_fails`).
* F30 (C52) `begin()` and `end()` of an empty `dvektor` dereference a null pointer (dvektor_impl.hpp 428, 439; `C52_empty_fails`).
* F31 *(reading)* `advance` of the iterator of `dvektor` tests `i_ <= base_` where `i_ >= base_` is meant (dvektor_impl.hpp 481); the results are
  right (`C52_iter_partial`), only slower.
* F32 (C57) under the collector, size tables are allocated with `norefs_tag` (node.hpp 283, operations.hpp 1331) and still hold a token, which
  is itself memory of the collector (gc_transience_policy.hpp 53-56; gc_heap.hpp 114-123). Copies of nodes share size tables, so a token
  may be held by size tables only. It can then be taken back and given to a new transient, which takes the size tables of an
  immutable vector for its own: `drop` on that transient changes elements of the vector (`C57_flex_fails`).
* F33 (C18) `all_of` gives a copy of its predicate to every chunk (algorithm.hpp 219, 231), and `accumulate` does so with its function (106): what
  they keep in themselves is lost after each leaf (`C18_own_state`: a predicate that returns false from its fifth call on never does). The
  standard lets algorithms copy function objects, so that this is no violation; `for_each` calls the object itself.

## Trusted base

Lean's kernel; the axioms `propext`, `Classical.choice`, `Quot.sound`; the fidelity of the hand-written
model to the C++ text (every definition cites the lines it models); sequential consistency for
the concurrency models of `Conc/*` (`Threads/*` has happens-before, see above). The C++ compiler, allocators, and the standard library are not modelled.
Except in `VecHeap/Tokens`, `FlexHeap/TokenReuse`, `ChampHeap/Tokens` and `Array/GcTokens` (C57), the theorems about a collector take it that tokens are
never given out again; C57 says for vectors, arrays, maps, sets and tables that this loses nothing, and for `flex_vector` that it is not so
(F32).
