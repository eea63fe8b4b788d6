/-!
Model of `pool_allocator.hpp`: bucket search, and histories of allocations through any number of `pool_allocator` objects
sharing any number of pools.

`boost::pool<>` and `new[]` are not modelled internally: they are sources that return some block of at least the requested
size that does not overlap any outstanding block, and that must get back only blocks they issued.
-/
namespace Verif.Pool

/-! ### Bucket search -/

/-- Where a request goes: the pool with this index, or `new char[]` (pool_allocator.hpp:45-64). -/
inductive Where where
  | bucket (ix : Nat)
  | heap
  deriving DecidableEq, Repr

/-- `allocate_impl<ix, bucket_size, rest...>(n_bytes)` (pool_allocator.hpp:45-64): the source that serves the request. -/
def allocFrom (ix : Nat) : List Nat → Nat → Where
  | [], _ => .heap
  | b :: rest, n => if n ≤ b then .bucket ix else allocFrom (ix + 1) rest n

/-- `deallocate_impl<ix, bucket_size, rest...>(data, n_bytes)` (pool_allocator.hpp:66-80): the source the block is given
to. -/
def freeTo (ix : Nat) : List Nat → Nat → Where
  | [], _ => .heap
  | b :: rest, n => if n ≤ b then .bucket ix else freeTo (ix + 1) rest n

/-! ### Histories -/

/-- A source of memory: bucket `ix` of pool object `p`, or the global heap (pool_allocator.hpp:43, 62). -/
inductive Src where
  | bucket (p ix : Nat)
  | heap
  deriving DecidableEq, Repr

/-- The source a request of pool object `p` goes to (pool_allocator.hpp:50, 62). -/
def Where.src (p : Nat) : Where → Src
  | .bucket ix => .bucket p ix
  | .heap => .heap

/-- The block size the source guarantees: the element size its `boost::pool` was constructed with, or what `new char[n]`
was asked for (pool_allocator.hpp:62,83). -/
def Where.size (bs : List Nat) (n : Nat) : Where → Nat
  | .bucket ix => (bs[ix]?).getD 0
  | .heap => n

/-- A block issued by a source: addresses `addr, ..., addr + cap - 1` (pool_allocator.hpp:50, 62). -/
structure Entry where
  src : Src
  addr : Nat
  cap : Nat
  deriving DecidableEq, Repr

/-- A block as the user knows it: `cnt` objects of `sz` bytes, obtained from an allocator on pool `pool`. `entry.addr` is
the pointer; the other parts of `entry` are there for the theorems only (pool_allocator.hpp:178-184). -/
structure Blk where
  pool : Nat
  cnt : Nat
  sz : Nat
  entry : Entry
  deriving DecidableEq, Repr

/-- `handles`: all `pool_allocator` objects ever created; `none` = destroyed, `some none` = null `pool_` (moved from),
`some (some p)` = refers to pool `p` (pool_allocator.hpp:149); a `shared_ptr` to the pool that a user holds
(pool_allocator.hpp:159-161, 174-176) counts as one of them. `issued`: blocks the sources consider outstanding.
`blocks`: blocks the users hold (`none` = given back). -/
structure St where
  npools : Nat
  handles : List (Option (Option Nat))
  issued : List Entry
  blocks : List (Option Blk)
  deriving DecidableEq, Repr

/-- Undefined behaviour: wrong source or missing pool (pool_allocator.hpp:66-80, 178-184). -/
inductive Err where
  /-- dereferencing a null `pool_` -/
  | nullPool
  /-- a source was given a block it did not issue -/
  | illegalFree
  deriving DecidableEq, Repr

/-- Operations of a program (pool_allocator.hpp:155-193). -/
inductive Op where
  | make
  | copy (h : Nat)
  | move (h : Nat)
  | copyAssign (dst src : Nat)
  | moveAssign (dst src : Nat)
  | swap (a b : Nat)
  | destroy (h : Nat)
  /-- `allocate(cnt)` for objects of `sz` bytes; the source answers with address `addr` and a block of `cap` bytes -/
  | alloc (h cnt sz addr cap : Nat)
  | allocFails (h cnt sz : Nat)
  /-- `deallocate` of the block with index `k` through handle `h` -/
  | dealloc (h k : Nat)
  deriving DecidableEq, Repr

/-- No allocator exists (pool_allocator.hpp:149). -/
def init : St := { npools := 0, handles := [], issued := [], blocks := [] }

/-- Two blocks do not overlap (specification of pool_allocator.hpp:178-180). -/
def Disj (a b : Entry) : Prop := a.addr + a.cap ≤ b.addr ∨ b.addr + b.cap ≤ a.addr

instance (a b : Entry) : Decidable (Disj a b) := inferInstanceAs (Decidable (_ ∨ _))

/-- After the handles changed: pools no handle refers to are destroyed, with all memory of their buckets
(`std::shared_ptr`, pool_allocator.hpp:92,149). -/
def St.collect (s : St) : St :=
  { s with issued := s.issued.filter (fun e => match e.src with
      | .heap => true
      | .bucket p _ => decide (some (some p) ∈ s.handles)) }

/-- One operation; `none` if it is not a well-formed program step or the sources would not answer like that.
`M` is the modulus of `size_t`, `bs` are the bucket sizes (pool_allocator.hpp:155-193, lines given at each case). -/
def step (M : Nat) (bs : List Nat) (s : St) : Op → Option (Except Err St)
  -- pool_allocator.hpp:155-157
  | .make => some (.ok { s with npools := s.npools + 1, handles := s.handles ++ [some (some s.npools)] })
  -- copy / converting constructor, select_on_container_copy_construction: pool_allocator.hpp:163,169-172,186-188
  | .copy h => match s.handles[h]? with
    | some (some p) => some (.ok { s with handles := s.handles ++ [some p] })
    | _ => none
  -- defaulted move constructor: moves the shared_ptr, pool_allocator.hpp:164
  | .move h => match s.handles[h]? with
    | some (some p) => some (.ok { s with handles := s.handles.set h (some none) ++ [some p] })
    | _ => none
  -- pool_allocator.hpp:165
  | .copyAssign d h => match s.handles[d]?, s.handles[h]? with
    | some (some _), some (some p) => some (.ok (St.collect { s with handles := s.handles.set d (some p) }))
    | _, _ => none
  -- defaulted move assignment, pool_allocator.hpp:166 (self-move of a shared_ptr keeps it)
  | .moveAssign d h => match s.handles[d]?, s.handles[h]? with
    | some (some _), some (some p) =>
      some (.ok (St.collect { s with handles := (s.handles.set h (some none)).set d (some p) }))
    | _, _ => none
  -- pool_allocator.hpp:190-193
  | .swap a b => match s.handles[a]?, s.handles[b]? with
    | some (some p), some (some q) => some (.ok { s with handles := (s.handles.set a (some q)).set b (some p) })
    | _, _ => none
  -- pool_allocator.hpp:167
  | .destroy h => match s.handles[h]? with
    | some (some _) => some (.ok (St.collect { s with handles := s.handles.set h none }))
    | _ => none
  -- pool_allocator.hpp:178-180,103-105
  | .alloc h cnt sz addr cap => match s.handles[h]? with
    | some (some none) => some (.error .nullPool)
    | some (some (some p)) =>
      let n := (sz * cnt) % M
      let w := allocFrom 0 bs n
      let e : Entry := ⟨w.src p, addr, cap⟩
      if w.size bs n ≤ cap ∧ 0 < cap ∧ ∀ x ∈ s.issued, Disj x e then
        some (.ok { s with issued := s.issued ++ [e], blocks := s.blocks ++ [some ⟨p, cnt, sz, e⟩] })
      else none
    | _ => none
  -- `bad_alloc` from either source, pool_allocator.hpp:51-54,62
  | .allocFails h _ _ => match s.handles[h]? with
    | some (some none) => some (.error .nullPool)
    | some (some (some _)) => some (.ok s)
    | _ => none
  -- pool_allocator.hpp:182-184,113-115; the handle must be equal to the one the block came from
  | .dealloc h k => match s.handles[h]?, s.blocks[k]? with
    | some (some (some p)), some (some b) =>
      if p = b.pool then
        let n := (b.sz * b.cnt) % M
        let src := (freeTo 0 bs n).src p
        match s.issued.find? (fun e => decide (e.src = src ∧ e.addr = b.entry.addr)) with
        | some e => some (.ok { s with issued := s.issued.erase e, blocks := s.blocks.set k none })
        | none => some (.error .illegalFree)
      else none
    | _, _ => none

/-- Run a sequence of operations; stops at the first error (programs using pool_allocator.hpp:155-193). -/
def run (M : Nat) (bs : List Nat) : St → List Op → Option (Except Err St)
  | s, [] => some (.ok s)
  | s, o :: os => match step M bs s o with
    | some (.ok s') => run M bs s' os
    | r => r

/-- States reachable without error (pool_allocator.hpp:155-193). -/
def Reachable (M : Nat) (bs : List Nat) (s : St) : Prop := ∃ os, run M bs init os = some (.ok s)

end Verif.Pool
