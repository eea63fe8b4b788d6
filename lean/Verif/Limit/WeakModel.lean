import Verif.Limit.Model

/-!
The synchronised control block of `limit_allocator.hpp` in the C++ memory model. All operations on the counter are relaxed, so they synchronize nothing; what a load may
return is limited by coherence only: not older than any value that the thread has read or written, or that it knows about through synchronization outside of
the allocator. Executions here are executions of `Limit/Model.lean` in which each load returns a value that coherence allows, with a log of which values were read and written.

Simplification: threads synchronize with each other (action `sync`) only outside of the member functions; the wrapped allocator synchronizes nothing.
-/
namespace Verif.Limit

/-- The thread of an action (for limit_allocator.hpp:29-41, 139-153). -/
def Act.tid : Act → Nat
  | .alloc i _ _ => i
  | .test i => i
  | .cas i _ _ => i
  | .upAlloc i _ => i
  | .refund i => i
  | .dealloc i _ => i
  | .upFree i => i
  | .giveBack i => i

/-- What threads do: an action of the model, which, if it is a load, reads value number `k` of the counter (in modification order, 0: the limit); or `t` lets `t'` know what
it knows, such as by unlocking a mutex that `t'` then locks (limit_allocator.hpp:29-41, 139-153). -/
inductive WAct where
  | act (a : Act) (k : Nat)
  | sync (t t' : Nat)
  deriving DecidableEq, Repr

/-- The allocator and for each thread the number of the oldest value that it may read (limit_allocator.hpp:27 in the C++ memory model). -/
structure WSt where
  s : St
  seen : Nat → Nat

/-- A fresh allocator, known to all threads (limit_allocator.hpp:105-109,123-137). -/
def winit (limit n : Nat) : WSt := ⟨init limit n, fun _ => 0⟩

/-- The log of an action: what happened, and the numbers of the values of the counter that it read and wrote. A successful compare-exchange and
`fetch_add` read the value before the one they write; only the latter is noted (limit_allocator.hpp:30, 36, 40). -/
structure Rec where
  act : WAct
  evs : List Ev
  reads : Option Nat
  writes : Option Nat
  deriving DecidableEq, Repr

/-- The value that the action gets from a load: the first load, or a compare-exchange that fails (limit_allocator.hpp:30, 36). -/
def loaded (s : St) : Act → Option Nat
  | .alloc _ _ v => some v
  | .cas i sp v => match s.pcs[i]? with
    | some (.cas _ old) => if s.left = old ∧ sp = false then none else some v
    | _ => none
  | _ => none

/-- Is the action a read-modify-write of the counter (limit_allocator.hpp:36, 40)? -/
def modifies (s : St) : Act → Bool
  | .cas i sp _ => match s.pcs[i]? with
    | some (.cas _ old) => decide (s.left = old ∧ sp = false)
    | _ => false
  | .refund _ => true
  | .giveBack _ => true
  | _ => false

/-- One action; `none` if it is not possible (limit_allocator.hpp:29-41, 139-153 in the C++ memory model). -/
def wstep (M : Nat) (w : WSt) : WAct → Option (WSt × Rec)
  | .sync t t' => if w.s.pcs[t]? = some .idle ∧ w.s.pcs[t']? = some .idle then
      some (⟨w.s, fun u => if u = t' then max (w.seen t') (w.seen t) else w.seen u⟩, ⟨.sync t t', [], none, none⟩)
    else none
  | .act a k => (step M w.s a).bind fun r =>
    match loaded w.s a with
    | some v => if w.seen a.tid ≤ k ∧ w.s.hist[k]? = some v then
        some (⟨r.1, fun u => if u = a.tid then k else w.seen u⟩, ⟨.act a k, r.2, some k, none⟩)
      else none
    | none => if modifies w.s a then
        some (⟨r.1, fun u => if u = a.tid then w.s.hist.length else w.seen u⟩, ⟨.act a k, r.2, none, some w.s.hist.length⟩)
      else some (⟨r.1, w.seen⟩, ⟨.act a k, r.2, none, none⟩)

/-- Executions: the state at the end, and the log (limit_allocator.hpp:29-41, 139-153 in the C++ memory model). -/
inductive WReachable (M limit n : Nat) : WSt → List Rec → Prop where
  | init : WReachable M limit n (winit limit n) []
  | step {w w' : WSt} {log : List Rec} {a : WAct} {r : Rec} (h : WReachable M limit n w log) (hs : wstep M w a = some (w', r)) :
      WReachable M limit n w' (log ++ [r])

end Verif.Limit
