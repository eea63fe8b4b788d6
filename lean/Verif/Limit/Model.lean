/-!
Model of `limit_allocator.hpp`: any number of threads call `allocate` and `deallocate` on allocators that share one
control block (copies, moves and rebinds of an allocator share it: limit_allocator.hpp:98-102,111-121,155-157).

Every step is one shared-memory action. The relaxed memory orders are taken seriously: a plain atomic load, and the load
a failing compare-exchange performs, may return any value the counter has ever had (a superset of what C++ allows), while
successful read-modify-write operations act on the current value (C++ guarantees a single modification order).

`size_t` arithmetic is modulo `M` (= 2^64 on the platforms supported; the theorems hold for every `M`).
-/
namespace Verif.Limit

/-- A block the wrapped allocator handed out: `n` objects of `sz = sizeof(T)` bytes (limit_allocator.hpp:143). -/
structure Block where
  n : Nat
  sz : Nat
  deriving DecidableEq, Repr

/-- The number of bytes the block really has (limit_allocator.hpp:143). -/
def Block.bytes (b : Block) : Nat := b.n * b.sz

/-- `n * sizeof(T)` as computed in `size_t` (limit_allocator.hpp:140,145,152). -/
def Block.cost (M : Nat) (b : Block) : Nat := (b.n * b.sz) % M

/-- Where a thread is (limit_allocator.hpp:29-41, 139-153, lines given at each position). -/
inductive PC where
  | idle
  /-- in `allocate`, holds `old`, about to compare it (limit_allocator.hpp:30,33) -/
  | loaded (b : Block) (old : Nat)
  /-- comparison passed, about to compare-exchange (limit_allocator.hpp:36) -/
  | cas (b : Block) (old : Nat)
  /-- charged, about to call the wrapped allocator (limit_allocator.hpp:143) -/
  | charged (b : Block)
  /-- the wrapped allocator threw, about to give the charge back (limit_allocator.hpp:145,40) -/
  | refund (b : Block)
  /-- in `deallocate`, about to call the wrapped allocator (limit_allocator.hpp:151) -/
  | freeing (b : Block)
  /-- block returned, about to give the charge back (limit_allocator.hpp:152,40) -/
  | giveBack (b : Block)
  deriving DecidableEq, Repr

/-- `left` is `bytes_left` (limit_allocator.hpp:27); `hist` are all values it ever had; `live` are the blocks the users
hold. -/
structure St where
  left : Nat
  hist : List Nat
  pcs : List PC
  live : List Block
  deriving DecidableEq, Repr

/-- Calls of a thread and choices of the environment (limit_allocator.hpp:29-41, 139-153). -/
inductive Act where
  /-- thread `i` calls `allocate(n)` for an object size; the load returns `v` -/
  | alloc (i : Nat) (b : Block) (v : Nat)
  | test (i : Nat)
  /-- `spurious` failure is allowed (weak); a failing compare-exchange returns `v` -/
  | cas (i : Nat) (spurious : Bool) (v : Nat)
  /-- the wrapped allocator succeeds or throws -/
  | upAlloc (i : Nat) (ok : Bool)
  | refund (i : Nat)
  /-- thread `i` calls `deallocate` on the block with index `k` among the live ones -/
  | dealloc (i k : Nat)
  | upFree (i : Nat)
  | giveBack (i : Nat)
  deriving DecidableEq, Repr

/-- Observable events (of limit_allocator.hpp:139-153). -/
inductive Ev where
  /-- `allocate` returned a block -/
  | ok (i : Nat) (b : Block)
  /-- `allocate` threw `bad_alloc` by itself -/
  | refused (i : Nat) (b : Block)
  /-- the wrapped allocator was asked for a block and gave it / threw -/
  | upstream (i : Nat) (b : Block) (ok : Bool)
  /-- `allocate` rethrew the exception of the wrapped allocator -/
  | failed (i : Nat) (b : Block)
  /-- the wrapped allocator took a block back -/
  | upstreamFree (i : Nat) (b : Block)
  /-- `deallocate` returned -/
  | freed (i : Nat) (b : Block)
  deriving DecidableEq, Repr

/-- A fresh allocator with limit `limit` used by `k` threads (limit_allocator.hpp:105-109,123-137). -/
def init (limit k : Nat) : St := { left := limit, hist := [limit], pcs := List.replicate k .idle, live := [] }

/-- One step. The wrapped allocator can only succeed if the block has fewer than `M` bytes: a larger object cannot exist.
Calls in programs are well-formed: what is deallocated is a live block (with its own `n` and `T`) (limit_allocator.hpp:29-41, 139-153, lines given
at each case). -/
def step (M : Nat) (s : St) : Act → Option (St × List Ev)
  -- limit_allocator.hpp:139-140,29-30
  | .alloc i b v => match s.pcs[i]? with
    | some .idle => if v ∈ s.hist then some ({ s with pcs := s.pcs.set i (.loaded b v) }, []) else none
    | _ => none
  -- limit_allocator.hpp:33-35
  | .test i => match s.pcs[i]? with
    | some (.loaded b old) =>
      if old < b.cost M then some ({ s with pcs := s.pcs.set i .idle }, [.refused i b])
      else some ({ s with pcs := s.pcs.set i (.cas b old) }, [])
    | _ => none
  -- limit_allocator.hpp:36
  | .cas i spurious v => match s.pcs[i]? with
    | some (.cas b old) =>
      if s.left = old ∧ spurious = false then
        some ({ s with left := (old + M - b.cost M) % M, hist := s.hist ++ [(old + M - b.cost M) % M],
                       pcs := s.pcs.set i (.charged b) }, [])
      else if v ∈ s.hist then some ({ s with pcs := s.pcs.set i (.loaded b v) }, [])
      else none
    | _ => none
  -- limit_allocator.hpp:142-144
  | .upAlloc i ok => match s.pcs[i]? with
    | some (.charged b) =>
      if ok then
        if b.bytes < M then some ({ s with pcs := s.pcs.set i .idle, live := s.live ++ [b] }, [.upstream i b true, .ok i b])
        else none
      else some ({ s with pcs := s.pcs.set i (.refund b) }, [.upstream i b false])
    | _ => none
  -- limit_allocator.hpp:145-146,40
  | .refund i => match s.pcs[i]? with
    | some (.refund b) =>
      some ({ s with left := (s.left + b.cost M) % M, hist := s.hist ++ [(s.left + b.cost M) % M],
                     pcs := s.pcs.set i .idle }, [.failed i b])
    | _ => none
  -- limit_allocator.hpp:150
  | .dealloc i k => match s.pcs[i]?, s.live[k]? with
    | some .idle, some b => some ({ s with pcs := s.pcs.set i (.freeing b), live := s.live.eraseIdx k }, [])
    | _, _ => none
  -- limit_allocator.hpp:151
  | .upFree i => match s.pcs[i]? with
    | some (.freeing b) => some ({ s with pcs := s.pcs.set i (.giveBack b) }, [.upstreamFree i b])
    | _ => none
  -- limit_allocator.hpp:152,40
  | .giveBack i => match s.pcs[i]? with
    | some (.giveBack b) =>
      some ({ s with left := (s.left + b.cost M) % M, hist := s.hist ++ [(s.left + b.cost M) % M],
                     pcs := s.pcs.set i .idle }, [.freed i b])
    | _ => none

/-- Run a sequence of steps (executions of limit_allocator.hpp:29-41, 139-153). -/
def run (M : Nat) : St → List Act → Option (St × List Ev)
  | s, [] => some (s, [])
  | s, a :: as => (step M s a).bind fun r => (run M r.1 as).bind fun r' => some (r'.1, r.2 ++ r'.2)

/-- States reachable in some execution (limit_allocator.hpp:29-41, 139-153). -/
def Reachable (M limit k : Nat) (s : St) (tr : List Ev) : Prop := ∃ as, run M (init limit k) as = some (s, tr)

/-! ### Sequential calls -/

/-- Outcome of `allocate` (limit_allocator.hpp:139-148). -/
inductive Out where
  | ok
  | refused
  | upstreamFailed
  deriving DecidableEq, Repr

/-- `allocate` with the unsynchronised control block (limit_allocator.hpp:48-57,139-148). `up` says whether the wrapped
allocator succeeds. Returns the outcome, the new budget, and whether the wrapped allocator was called. -/
def seqAllocate (M left : Nat) (b : Block) (up : Bool) : Out × Nat × Bool :=
  if left < b.cost M then (.refused, left, false)
  else
    let left' := (left + M - b.cost M) % M
    if up then (.ok, left', true) else (.upstreamFailed, (left' + b.cost M) % M, true)

/-- `deallocate` with the unsynchronised control block (limit_allocator.hpp:55-57,150-153). -/
def seqDeallocate (M left : Nat) (b : Block) : Nat := (left + b.cost M) % M

end Verif.Limit
