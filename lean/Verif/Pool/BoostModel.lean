import Verif.Pool.Model

/-!
A single `pool<bucket_sizes...>` of `pool_allocator.hpp` together with what it is made of: `boost::pool<boost::default_user_allocator_new_delete>` and `new char[]`.
`Pool/Model.lean` assumes that these answer with blocks that do not overlap; here the answers are computed.

`boost::pool` is not part of the repository. What is modelled of it, from its documentation and implementation (pool.hpp, simple_segregated_storage.hpp of Boost): requests are
rounded up to a multiple of the word size; memory is obtained with `new char[]` in chunks, divided into partitions of that size starting at the
address of the chunk; free partitions are kept in a list; `malloc` takes its first element, or gets a new chunk; `free` puts a partition to the front.
Simplifications: how many partitions a chunk has is up to the environment; a second attempt with a smaller chunk after a failure is the
answer of the environment to the first; sizes of pointers and of `size_t` are 8.
-/
namespace Verif.Pool

/-- Alignment of memory from `operator new` on the platforms supported, `__STDCPP_DEFAULT_NEW_ALIGNMENT__` (for pool_allocator.hpp:41, 62). -/
def newAlign : Nat := 16

/-- `boost::pool::alloc_size`: the distance of partitions for the requested size given in the constructor (for pool_allocator.hpp:41, 83). -/
def partSize (s : Nat) : Nat :=
  let m := max s 8
  if m % 8 = 0 then m else m + (8 - m % 8)

/-- A `boost::pool`: requested size, free list, and chunks as base address and number of partitions (for pool_allocator.hpp:41-43). -/
structure Bucket where
  size : Nat
  free : List Nat
  chunks : List (Nat × Nat)
  deriving DecidableEq, Repr

/-- The memory of a chunk: its partitions, and the administrative data at the end (for pool_allocator.hpp:41). -/
def chunkBytes (s k : Nat) : Nat := k * partSize s + 16

/-- Memory as address and size in bytes (for pool_allocator.hpp:50, 62). -/
abbrev Area := Nat × Nat

/-- The areas do not overlap (specification of `new`, for pool_allocator.hpp:41, 62). -/
def Apart (x y : Area) : Prop := x.1 + x.2 ≤ y.1 ∨ y.1 + y.2 ≤ x.1

instance (x y : Area) : Decidable (Apart x y) := inferInstanceAs (Decidable (_ ∨ _))

/-- `boost::pool::malloc`; `grow` is the answer of `new char[]` if it is needed: the address, and the number of partitions less one
(pool_allocator.hpp:50). -/
def Bucket.malloc (b : Bucket) (grow : Option (Nat × Nat)) : Option Nat × Bucket :=
  match b.free with
  | a :: rest => (some a, { b with free := rest })
  | [] => match grow with
    | none => (none, b)
    | some (base, k) =>
      (some base, { b with free := (List.range k).map (fun i => base + (i + 1) * partSize b.size), chunks := b.chunks ++ [(base, k + 1)] })

/-- `boost::pool::free` (pool_allocator.hpp:70). -/
def Bucket.release (b : Bucket) (a : Nat) : Bucket := { b with free := a :: b.free }

/-- A pool object: its buckets (pool_allocator.hpp:43), the blocks from `new char[n_bytes]` that were not deleted (62), and the blocks in use,
with the number of bytes requested (for the theorems). -/
structure Arena where
  buckets : List Bucket
  heap : List Area
  live : List Area
  deriving DecidableEq, Repr

/-- Constructor (pool_allocator.hpp:83-84). -/
def Arena.init (bs : List Nat) : Arena := ⟨bs.map fun s => ⟨s, [], []⟩, [], []⟩

/-- All memory obtained from `new char[]` (pool_allocator.hpp:41, 62). -/
def Arena.areas (s : Arena) : List Area :=
  s.buckets.flatMap (fun b => b.chunks.map fun c => (c.1, chunkBytes b.size c.2)) ++ s.heap

/-- `new char[]` may answer with this area: aligned, and apart from what it gave before (specification of `new`, for pool_allocator.hpp:41, 62). -/
def Arena.fresh (s : Arena) (x : Area) : Prop := newAlign ∣ x.1 ∧ ∀ y ∈ s.areas, Apart x y

instance (s : Arena) (x : Area) : Decidable (s.fresh x) := inferInstanceAs (Decidable (_ ∧ _))

/-- Calls of a program, and the answers of `new char[]` (pool_allocator.hpp:104-117). -/
inductive ArenaOp where
  /-- `allocate(n)` -/
  | allocate (n : Nat) (ans : Option (Nat × Nat))
  /-- `deallocate` of the block in use with index `j` -/
  | deallocate (j : Nat)
  deriving DecidableEq, Repr

/-- One call, and the address that `allocate` returns (`none` if it throws); no result if the environment cannot answer like that or there is no such
block (pool_allocator.hpp:45-80, 104-117). -/
def Arena.step (s : Arena) : ArenaOp → Option (Arena × Option Nat)
  | .allocate n ans => match allocFrom 0 (s.buckets.map (·.size)) n with
    | .bucket i => match s.buckets[i]? with
      | none => none
      | some b =>
        let possible : Bool := match b.free, ans with
          | _ :: _, _ => true
          | [], none => true
          | [], some (base, k) => decide (s.fresh (base, chunkBytes b.size (k + 1)))
        match possible with
        | false => none
        | true => match b.malloc ans with
          | (none, _) => some (s, none)
          | (some a, b') => some ({ s with buckets := s.buckets.set i b', live := s.live ++ [(a, n)] }, some a)
    | .heap => match ans with
      | none => some (s, none)
      | some (a, _) => if s.fresh (a, n) then some ({ s with heap := s.heap ++ [(a, n)], live := s.live ++ [(a, n)] }, some a) else none
  | .deallocate j => match s.live[j]? with
    | none => none
    | some (a, n) => match freeTo 0 (s.buckets.map (·.size)) n with
      | .bucket i => match s.buckets[i]? with
        | none => none
        | some b => some ({ s with buckets := s.buckets.set i (b.release a), live := s.live.eraseIdx j }, none)
      | .heap => some ({ s with heap := s.heap.erase (a, n), live := s.live.eraseIdx j }, none)

/-- A sequence of calls (pool_allocator.hpp:104-117). -/
def Arena.run : Arena → List ArenaOp → Option Arena
  | s, [] => some s
  | s, o :: os => (s.step o).bind fun r => Arena.run r.1 os

/-- States of a pool (pool_allocator.hpp:83-84, 104-117). -/
def ArenaReachable (bs : List Nat) (s : Arena) : Prop := ∃ os, (Arena.init bs).run os = some s

end Verif.Pool
