/-!
# The `noexcept` promises of the library

C++ evaluates the `noexcept` clause of a function once, from the type traits of the types it is instantiated with.
If the function then lets an exception escape although the clause said `true`, the program is terminated.  This file
models, for every function of the library that carries a non-trivial clause, the clause and the operations on user
types (and on the standard library) that the body performs, in order, in each situation the body distinguishes.

Simplifications: an operation either completes or throws (values are not tracked); locking a `std::mutex`, waiting on
and notifying a condition variable, and copying or moving a `std::shared_ptr` never throw.
-/
namespace Verif.Noexcept

/-- An operation that a library function performs on a user type (alternative number `i`; functions over one type use
`i = 0`) or on its environment.  `args` is the construction `T(args...)` the trait `std::is_nothrow_constructible`
asks about, `brace` the construction `T{args...}`; `mem` is a request for memory from `std::allocator`, `badAccess`
the `std::bad_variant_access` of a visit of a valueless variant (variant2.hpp:81-140, polymorphic_allocator.hpp:162-189). -/
inductive Act where
  | dflt (i : Nat) | args (i : Nat) | brace (i : Nat) | copyC (i : Nat) | moveC (i : Nat) | copyA (i : Nat)
  | moveA (i : Nat) | dtor (i : Nat) | swp (i : Nat) | alloc (i : Nat) | dealloc (i : Nat) | eq (i : Nat)
  | hash (i : Nat) | copyTo | moveTo | mem | badAccess
  deriving DecidableEq

/-- What the user types declare: which operations are `noexcept`, which are trivial; the traits asked in variant2.hpp:204-428. -/
structure Ty where
  decl : Act → Bool
  triv : Act → Bool

/-- An operation that cannot throw: declared `noexcept` (the language enforces the declaration), except that running
out of memory and `std::bad_variant_access` are exceptions no declaration of a user type prevents (channel.hpp:101, variant2.hpp:43). -/
def Ty.quiet (t : Ty) : Act → Bool
  | .mem => false
  | .badAccess => false
  | a => t.decl a

/-- Trivial operations are `noexcept`: variant2.hpp:204-206, 232-234, 329-331, 420-422. -/
def Ty.Wf (t : Ty) : Prop := ∀ a, t.triv a = true → t.quiet a = true

/-- No destructor throws, as inplace_polymorphic.hpp:67-68 demands and the containers of the standard library do. -/
def Ty.Dtors (t : Ty) : Prop := ∀ i, t.quiet (.dtor i) = true

/-- What a function body does.  `call b p` is a call of a function whose `noexcept` clause evaluates to `b`, `within p d`
runs `p` while a local object lives whose destructor is `d`, `cleanup p d` runs `p` with a completed subobject that is
destroyed by `d` only if `p` throws (e.g. channel.hpp:188-195, mutex.hpp:79-102). -/
inductive Prog where
  | skip
  | act (a : Act)
  | seq (p q : Prog)
  | call (spec : Bool) (p : Prog)
  | within (p : Prog) (d : Act)
  | cleanup (p : Prog) (d : Act)

/-- How a call ends; the functions concerned are cited at their definitions, e.g. channel.hpp:85, variant2.hpp:718. -/
inductive Out where
  | done | threw | terminated
  deriving DecidableEq

/-- The outcomes of a body: an operation that is not quiet may throw; an exception that leaves a function whose clause
is `true` terminates the program, and so does a destructor that throws during unwinding (language rule; the clauses are those of e.g. channel.hpp:85-300,
variant2.hpp:199-718). -/
inductive Runs (t : Ty) : Prog → Out → Prop where
  | skip : Runs t .skip .done
  | ok (a : Act) : Runs t (.act a) .done
  | throws {a : Act} : t.quiet a = false → Runs t (.act a) .threw
  | seq {p q : Prog} {o : Out} : Runs t p .done → Runs t q o → Runs t (.seq p q) o
  | stop {p q : Prog} {o : Out} : Runs t p o → o ≠ .done → Runs t (.seq p q) o
  | call {b : Bool} {p : Prog} {o : Out} : Runs t p o → (o = .threw → b = false) → Runs t (.call b p) o
  | escape {p : Prog} : Runs t p .threw → Runs t (.call true p) .terminated
  | leave {p : Prog} {d : Act} {o : Out} : Runs t p .done → Runs t (.act d) o → Runs t (.within p d) o
  | unwind {p : Prog} {d : Act} : Runs t p .threw → Runs t (.within p d) .threw
  | unwindThrows {p : Prog} {d : Act} : Runs t p .threw → t.quiet d = false → Runs t (.within p d) .terminated
  | abort {p : Prog} {d : Act} : Runs t p .terminated → Runs t (.within p d) .terminated
  | keep {p : Prog} {d : Act} {o : Out} : Runs t p o → Runs t (.cleanup p d) o
  | cleanupThrows {p : Prog} {d : Act} : Runs t p .threw → t.quiet d = false → Runs t (.cleanup p d) .terminated

/-! ### The type traits

`std::is_nothrow_…_constructible` also asks for a `noexcept` destructor, the `…_assignable` and `…_swappable` traits do
not. -/

/-- `std::is_nothrow_default_constructible`, asked e.g. at variant2.hpp:199. -/
def ndc (t : Ty) (i : Nat) : Bool := t.quiet (.dflt i) && t.quiet (.dtor i)
/-- `std::is_nothrow_constructible`, asked e.g. at channel.hpp:85. -/
def nac (t : Ty) (i : Nat) : Bool := t.quiet (.args i) && t.quiet (.dtor i)
/-- `std::is_nothrow_copy_constructible`, asked e.g. at channel.hpp:139. -/
def ncc (t : Ty) (i : Nat) : Bool := t.quiet (.copyC i) && t.quiet (.dtor i)
/-- `std::is_nothrow_move_constructible`, asked e.g. at channel.hpp:159. -/
def nmc (t : Ty) (i : Nat) : Bool := t.quiet (.moveC i) && t.quiet (.dtor i)
/-- `std::is_nothrow_copy_assignable`, asked e.g. at channel.hpp:242. -/
def nca (t : Ty) (i : Nat) : Bool := t.quiet (.copyA i)
/-- `std::is_nothrow_move_assignable`, asked e.g. at limit_allocator.hpp:114. -/
def nma (t : Ty) (i : Nat) : Bool := t.quiet (.moveA i)
/-- `std::is_nothrow_destructible`, asked e.g. at variant2.hpp:306. -/
def nd (t : Ty) (i : Nat) : Bool := t.quiet (.dtor i)
/-- `std::is_nothrow_swappable`, asked e.g. at channel.hpp:257. -/
def nsw (t : Ty) (i : Nat) : Bool := t.quiet (.swp i)

/-- `(trait<Ts> && ...)` over the `n` alternatives: polymorphic_allocator.hpp:161-189. -/
def each (n : Nat) (f : Nat → Bool) : Bool := (List.range n).all f

/-! ### `std::optional<T>` (cppreference: optional) -/

/-- Construction from another optional, by the construction `c` of the element; the move constructor carries the exact
clause, the copy constructor none.  Called at channel.hpp:239, 254. -/
def optCtor (c : Act) (other : Bool) : Prog := if other then .act c else .skip

/-- Assignment from another optional: element assignment `a` if both hold a value, construction `c` if only the other
does, destruction if only this one does.  Called at channel.hpp:229, 248. -/
def optAssign (c a : Act) (self other : Bool) : Prog :=
  match self, other with
  | true, true => .act a
  | false, true => .act c
  | true, false => .act (.dtor 0)
  | false, false => .skip

/-- `optional::swap`, with its clause `is_nothrow_move_constructible && is_nothrow_swappable`; called at channel.hpp:260. -/
def optSwap (t : Ty) (self other : Bool) : Prog :=
  .call (nmc t 0 && nsw t 0) (match self, other with
    | true, true => .act (.swp 0)
    | false, false => .skip
    | _, _ => .seq (.act (.moveC 0)) (.act (.dtor 0)))

/-! ### `channel<T>` -/

/-- The body of `emplace`, `try_emplace` (channel.hpp:84-131): `emplace_back` on the deque allocates when the last block
is full (`grow`), then constructs the element; `gone` is the early return (closed, or no room for `try_emplace`). -/
def chEmplace (spec : Bool) (c : Act) (gone grow : Bool) : Prog :=
  .call spec (if gone then .skip else .seq (if grow then .act .mem else .skip) (.act c))

/-- `emplace(args...)`, `try_emplace(args...)`: channel.hpp:84-131. -/
def chEmplaceArgs (t : Ty) (gone grow : Bool) : Prog := chEmplace (nac t 0) (.args 0) gone grow
/-- `push(T const &)`, `try_push(T const &)`: channel.hpp:139-141, 149-151.  The clause of the inner `emplace` is the
same trait. -/
def chPushCopy (t : Ty) (gone grow : Bool) : Prog := .call (ncc t 0) (chEmplace (ncc t 0) (.copyC 0) gone grow)
/-- `push(T &&)`, `try_push(T &&)`: channel.hpp:159-161, 169-171. -/
def chPushMove (t : Ty) (gone grow : Bool) : Prog := .call (nmc t 0) (chEmplace (nmc t 0) (.moveC 0) gone grow)

/-- `pop`, `try_pop`: channel.hpp:179-217.  The element is moved into a local, destroyed in the deque, and moved from the
local into the returned optional. -/
def chPop (t : Ty) (empty : Bool) : Prog :=
  .call (nmc t 0) (if empty then .skip else
    .seq (.act (.moveC 0)) (.within (.seq (.act (.dtor 0)) (.act (.moveC 0))) (.dtor 0)))

/-- `buf_ = pop()`: the optional returned by `pop` is a temporary, destroyed afterwards: channel.hpp:229, exchange_channel.hpp:166. -/
def advanceBody (pop : Prog) (engaged empty : Bool) : Prog :=
  .seq pop (if empty then optAssign (.moveC 0) (.moveA 0) engaged false
    else .within (optAssign (.moveC 0) (.moveA 0) engaged true) (.dtor 0))

/-- `iterator::advance`, with it `operator++` (both): channel.hpp:228-230, 280-287, unconditionally `noexcept`. -/
def chItNext (t : Ty) (engaged empty : Bool) : Prog := .call true (advanceBody (chPop t empty) engaged empty)
/-- `begin()` and the constructor of `iterator`: channel.hpp:233-235, 300-302, unconditionally `noexcept`. -/
def chItBegin (t : Ty) (empty : Bool) : Prog := .call true (chItNext t false empty)
/-- Copy constructor of `iterator`: channel.hpp:237-240, exchange_channel.hpp:175-178. -/
def itCopy (t : Ty) (other : Bool) : Prog := .call (ncc t 0) (optCtor (.copyC 0) other)
/-- Move constructor of `iterator`: channel.hpp:252-255, exchange_channel.hpp:190-193. -/
def itMove (t : Ty) (other : Bool) : Prog := .call (nmc t 0) (optCtor (.moveC 0) other)
/-- Copy assignment of `iterator` (distinct objects): channel.hpp:242-250, exchange_channel.hpp:180-188. -/
def itCopyAssign (t : Ty) (self other : Bool) : Prog := .call (nca t 0) (optAssign (.copyC 0) (.copyA 0) self other)
/-- Move assignment of `iterator`: channel.hpp:257-262, exchange_channel.hpp:195-200, swaps the buffers. -/
def itMoveAssign (t : Ty) (self other : Bool) : Prog := .call (nsw t 0) (optSwap t self other)

/-! ### `exchange_channel<T>` -/

/-- The body of `emplace`: exchange_channel.hpp:78-97; `optional::emplace` destroys the old value (if `full`) first. -/
def xEmplace (spec : Bool) (c : Act) (gone full : Bool) : Prog :=
  .call spec (if gone then .skip else .seq (if full then .act (.dtor 0) else .skip) (.act c))
/-- `emplace(args...)`: exchange_channel.hpp:78-97. -/
def xEmplaceArgs (t : Ty) (gone full : Bool) : Prog := xEmplace (nac t 0) (.args 0) gone full
/-- `push(T const &)`: exchange_channel.hpp:104-106. -/
def xPushCopy (t : Ty) (gone full : Bool) : Prog := .call (ncc t 0) (xEmplace (ncc t 0) (.copyC 0) gone full)
/-- `push(T &&)`: exchange_channel.hpp:114-116. -/
def xPushMove (t : Ty) (gone full : Bool) : Prog := .call (nmc t 0) (xEmplace (nmc t 0) (.moveC 0) gone full)
/-- `pop`, `try_pop`: exchange_channel.hpp:124-149.  `std::exchange` moves the slot into a temporary and resets the slot,
then the value is moved from the temporary into the returned optional. -/
def xPop (t : Ty) (empty : Bool) : Prog :=
  .call (nmc t 0) (if empty then .skip else
    .seq (.act (.moveC 0)) (.within (.seq (.act (.dtor 0)) (.act (.moveC 0))) (.dtor 0)))
/-- `iterator::advance`, `operator++`: exchange_channel.hpp:165-167, 220-227. -/
def xItNext (t : Ty) (engaged empty : Bool) : Prog := .call (nmc t 0) (advanceBody (xPop t empty) engaged empty)
/-- `begin()`, the constructor of `iterator`: exchange_channel.hpp:170-173, 240-242. -/
def xItBegin (t : Ty) (empty : Bool) : Prog := .call (nmc t 0) (xItNext t false empty)

/-! ### `limit_allocator` and `offset_ptr_stl_allocator` (one upstream allocator) -/

/-- Copy constructor: limit_allocator.hpp:111, polymorphic_allocator.hpp:356 — the clause asks about the *move*. -/
def limCopy (t : Ty) : Prog := .call (nmc t 0) (.act (.copyC 0))
/-- Move constructor: limit_allocator.hpp:112, polymorphic_allocator.hpp:357 — the clause asks about the *copy*. -/
def limMove (t : Ty) : Prog := .call (ncc t 0) (.act (.moveC 0))
/-- Copy assignment: limit_allocator.hpp:113, polymorphic_allocator.hpp:358. -/
def limCopyAssign (t : Ty) : Prog := .call (nca t 0) (.act (.copyA 0))
/-- Move assignment: limit_allocator.hpp:114, polymorphic_allocator.hpp:359. -/
def limMoveAssign (t : Ty) : Prog := .call (nma t 0) (.act (.moveA 0))
/-- Converting (rebinding) constructor: limit_allocator.hpp:117-121, polymorphic_allocator.hpp:363-367. -/
def limConvert (t : Ty) : Prog := .call (nac t 0) (.act (.args 0))
/-- `swap`: limit_allocator.hpp:163-169, polymorphic_allocator.hpp:402-407. -/
def limSwap (t : Ty) : Prog := .call (nsw t 0) (.act (.swp 0))
/-- Equality, defaulted and unconditionally `noexcept`: limit_allocator.hpp:171-172, polymorphic_allocator.hpp:409-410,
192-193 and 292-293 with one alternative. -/
def limEq (_t : Ty) : Prog := .call true (.act (.eq 0))

/-! ### `variant2<T, U>` (alternatives 0 and 1; `none` is valueless) -/

/-- A trait asked of both alternatives: variant2.hpp:208-209, 236, 334-336, 425-427. -/
def both (f : Nat → Bool) : Bool := f 0 && f 1

/-- Default constructor: variant2.hpp:199-202. -/
def vDefault (t : Ty) : Prog := .call (ndc t 0) (.act (.dflt 0))
/-- Constructor from `T const &`, `U const &`: variant2.hpp:259-262, 269-272. -/
def vFromCopy (t : Ty) (i : Nat) : Prog := .call (ncc t i) (.act (.copyC i))
/-- Constructor from `T &&`, `U &&`: variant2.hpp:264-267, 274-277 — the clause asks about the *copy*. -/
def vFromMove (t : Ty) (i : Nat) : Prog := .call (ncc t i) (.act (.moveC i))
/-- The in-place constructors: variant2.hpp:279-301 — the clause asks about `T(args...)`, the body runs `T{args...}`. -/
def vInPlace (t : Ty) (i : Nat) : Prog := .call (nac t i) (.act (.brace i))
/-- Act on the alternative a variant holds: variant2.hpp:212-229, 239-256, 309-325. -/
def onAlt (c : Nat → Act) : Option Nat → Prog
  | some i => .act (c i)
  | none => .skip
/-- Copy constructor, both overloads: variant2.hpp:204-230. -/
def vCopy (t : Ty) (o : Option Nat) : Prog :=
  if both (fun i => t.triv (.copyC i) && t.triv (.dtor i)) then .call true .skip
  else .call (both (ncc t)) (onAlt .copyC o)
/-- Move constructor, both overloads: variant2.hpp:232-257. -/
def vMove (t : Ty) (o : Option Nat) : Prog :=
  if both (fun i => t.triv (.moveC i) && t.triv (.dtor i)) then .call true .skip
  else .call (both (nmc t)) (onAlt .moveC o)
/-- Destructor, both overloads: variant2.hpp:303-326. -/
def vDtor (t : Ty) (o : Option Nat) : Prog :=
  if both (fun i => t.triv (.dtor i)) then .call true .skip else .call (both (nd t)) (onAlt .dtor o)
/-- The switch of the assignment operators: variant2.hpp:342-415, 432-507. -/
def vAssignBody (c a : Nat → Act) (self other : Option Nat) : Prog :=
  match self, other with
  | some i, some j => if i = j then .act (a i) else .seq (.act (.dtor i)) (.act (c j))
  | some i, none => .act (.dtor i)
  | none, o => onAlt c o
/-- The clause of copy assignment, of the overload that is selected: variant2.hpp:329-338. -/
def vCopyAssignSpec (t : Ty) : Bool :=
  both (fun i => t.triv (.copyA i)) || both (fun i => nca t i && nd t i && ncc t i)
/-- Copy assignment, both overloads: variant2.hpp:329-418. -/
def vCopyAssign (t : Ty) (self other : Option Nat) : Prog :=
  .call (vCopyAssignSpec t) (if both (fun i => t.triv (.copyA i)) then .skip else vAssignBody .copyC .copyA self other)
/-- The clause of move assignment: variant2.hpp:420-428. -/
def vMoveAssignSpec (t : Ty) : Bool :=
  both (fun i => t.triv (.moveA i)) || both (fun i => nma t i && nd t i && nmc t i)
/-- Move assignment, both overloads: variant2.hpp:420-511. -/
def vMoveAssign (t : Ty) (self other : Option Nat) : Prog :=
  .call (vMoveAssignSpec t) (if both (fun i => t.triv (.moveA i)) then .skip else vAssignBody .moveC .moveA self other)
/-- Assignment from `T const &` (`i = 0`) or `U const &` (`i = 1`): variant2.hpp:513-542, 575-602. -/
def vAssignCopyVal (t : Ty) (i : Nat) (self : Option Nat) : Prog :=
  .call (nca t i && nd t (1 - i) && ncc t i) (vAssignBody .copyC .copyA self (some i))
/-- Assignment from `T &&`, `U &&`: variant2.hpp:544-573, 604-631. -/
def vAssignMoveVal (t : Ty) (i : Nat) (self : Option Nat) : Prog :=
  .call (nma t i && nd t (1 - i) && nmc t i) (vAssignBody .moveC .moveA self (some i))
/-- `swap`: variant2.hpp:718-722.  The clause is `is_nothrow_move_assignable<variant2>`, the body also move-constructs a
temporary. -/
def vSwap (t : Ty) (l r : Option Nat) : Prog :=
  .call (vMoveAssignSpec t) (.seq (vMove t l)
    (match l with
      | some i => .within (.seq (vMoveAssign t l r) (vMoveAssign t r l)) (.dtor i)
      | none => .seq (vMoveAssign t l r) (vMoveAssign t r l)))
/-- `operator==`: variant2.hpp:724-744 (`operator<=>`, 746-777, has the same shape). -/
def vEq (_t : Ty) (l r : Option Nat) : Prog :=
  .call true (match l, r with | some i, some j => if i = j then .act (.eq i) else .skip | _, _ => .skip)
/-- `std::hash`: variant2.hpp:42-53; `visit` throws on a valueless variant, the visitor is `noexcept`. -/
def vHash (_t : Ty) (o : Option Nat) : Prog :=
  .call true (match o with | some i => .call true (.act (.hash i)) | none => .act .badAccess)

/-! ### `std::variant` (cppreference: variant) -/

/-- Copy assignment of `std::variant`: a new alternative is copied into place if the copy is nothrow or the move is not,
otherwise through a temporary.  Called at polymorphic_allocator.hpp:171, integral_template_variant.hpp:67. -/
def svCopyAssign (t : Ty) (self other : Option Nat) : Prog :=
  match self, other with
  | some i, some j =>
    if i = j then .act (.copyA i)
    else if ncc t j || !nmc t j then .seq (.act (.dtor i)) (.act (.copyC j))
    else .seq (.act (.copyC j)) (.within (.seq (.act (.dtor i)) (.act (.moveC j))) (.dtor j))
  | none, some j =>
    if ncc t j || !nmc t j then .act (.copyC j)
    else .seq (.act (.copyC j)) (.within (.act (.moveC j)) (.dtor j))
  | some i, none => .act (.dtor i)
  | none, none => .skip
/-- Move assignment of `std::variant` over `n` alternatives, with its clause; called at polymorphic_allocator.hpp:174,
integral_template_variant.hpp:68. -/
def svMoveAssign (t : Ty) (n : Nat) (self other : Option Nat) : Prog :=
  .call (each n (fun i => nmc t i && nma t i)) (vAssignBody .moveC .moveA self other)
/-- The clause of `swap` of `std::variant` over `n` alternatives, asked at polymorphic_allocator.hpp:194. -/
def svSwapSpec (t : Ty) (n : Nat) : Bool := each n (fun i => nmc t i && nsw t i)
/-- `swap` of `std::variant`, called at polymorphic_allocator.hpp:197. -/
def svSwap (t : Ty) (n : Nat) (l r : Option Nat) : Prog :=
  .call (svSwapSpec t n) (match l, r with
    | some i, some j => if i = j then .act (.swp i)
        else .seq (.act (.moveC j)) (.within (.seq (.seq (.act (.dtor j)) (.act (.moveC i)))
          (.seq (.act (.dtor i)) (.act (.moveC j)))) (.dtor j))
    | some i, none => .seq (.act (.moveC i)) (.act (.dtor i))
    | none, some j => .seq (.act (.moveC j)) (.act (.dtor j))
    | none, none => .skip)

/-! ### `polymorphic_allocator` with `n` alternatives: `variant2` if `n = 2`, `std::variant` otherwise -/

/-- Default constructor: polymorphic_allocator.hpp:143, 251. -/
def paDefault (t : Ty) : Prog := .call (ndc t 0) (.act (.dflt 0))
/-- In-place constructors: polymorphic_allocator.hpp:145-153, 253-261: the `std::variant` constructs `T(args...)`, `variant2`
and the single-allocator version `T{args...}`. -/
def paInPlace (t : Ty) (n i : Nat) : Prog :=
  .call (nac t i) (if n = 2 then vInPlace t i else if n = 1 then .act (.brace i) else .act (.args i))
/-- Converting constructor from another value type: polymorphic_allocator.hpp:160-168; `visit` throws on a valueless
variant. -/
def paConvert (t : Ty) (n : Nat) (o : Option Nat) : Prog :=
  .call (each n (nac t)) (match o with | some i => .act (.args i) | none => .act .badAccess)
/-- Copy constructor: polymorphic_allocator.hpp:170, 278. -/
def paCopy (t : Ty) (n : Nat) (o : Option Nat) : Prog := .call (each n (ncc t)) (onAlt .copyC o)
/-- Move constructor: polymorphic_allocator.hpp:173, 281. -/
def paMove (t : Ty) (n : Nat) (o : Option Nat) : Prog := .call (each n (nmc t)) (onAlt .moveC o)
/-- Destructor: polymorphic_allocator.hpp:176, 276. -/
def paDtor (t : Ty) (n : Nat) (o : Option Nat) : Prog := .call (each n (nd t)) (onAlt .dtor o)
/-- Copy assignment: polymorphic_allocator.hpp:171 — the clause asks only about assignment. -/
def paCopyAssign (t : Ty) (n : Nat) (self other : Option Nat) : Prog :=
  .call (each n (nca t)) (if n = 2 then vCopyAssign t self other else svCopyAssign t self other)
/-- Move assignment: polymorphic_allocator.hpp:174 — the clause asks only about assignment. -/
def paMoveAssign (t : Ty) (n : Nat) (self other : Option Nat) : Prog :=
  .call (each n (nma t)) (if n = 2 then vMoveAssign t self other else svMoveAssign t n self other)
/-- `allocate`: polymorphic_allocator.hpp:179-183. -/
def paAllocate (t : Ty) (n : Nat) (o : Option Nat) : Prog :=
  .call (each n (fun i => t.quiet (.alloc i))) (match o with | some i => .act (.alloc i) | none => .act .badAccess)
/-- `deallocate`: polymorphic_allocator.hpp:185-189. -/
def paDeallocate (t : Ty) (n : Nat) (o : Option Nat) : Prog :=
  .call (each n (fun i => t.quiet (.dealloc i))) (match o with | some i => .act (.dealloc i) | none => .act .badAccess)
/-- `swap`: polymorphic_allocator.hpp:194-198; the clause is the clause of the inner variant's `swap`. -/
def paSwap (t : Ty) (n : Nat) (l r : Option Nat) : Prog :=
  .call (if n = 2 then vMoveAssignSpec t else svSwapSpec t n) (if n = 2 then vSwap t l r else svSwap t n l r)

/-! ### `inplace_polymorphic` (destructors are required to be `noexcept`, inplace_polymorphic.hpp:67-68) -/

/-- Default constructor: inplace_polymorphic.hpp:126-130. -/
def ipDefault (t : Ty) : Prog := .call (ndc t 0) (.act (.dflt 0))
/-- In-place constructor: inplace_polymorphic.hpp:138-145. -/
def ipInPlace (t : Ty) (i : Nat) : Prog := .call (nac t i) (.act (.brace i))
/-- `drop`: inplace_polymorphic.hpp:78-87. -/
def ipDrop (_t : Ty) (o : Option Nat) : Prog := .call true (onAlt .dtor o)
/-- `emplace`: inplace_polymorphic.hpp:222-230. -/
def ipEmplace (t : Ty) (i : Nat) (self : Option Nat) : Prog :=
  .call (nac t i) (.seq (ipDrop t self) (.act (.brace i)))
/-- Copy constructor and copy assignment through `copy_from`: inplace_polymorphic.hpp:97-107, 154-156, 180-188; an override
of a `noexcept` virtual function is `noexcept`, so `copyTo` stands for every override. -/
def ipCopyAssign (t : Ty) (self other : Option Nat) : Prog :=
  .call (t.quiet .copyTo) (.seq (ipDrop t self)
    (.call (t.quiet .copyTo) (match other with | some _ => .act .copyTo | none => .skip)))
/-- Move constructor and move assignment through `move_from`: inplace_polymorphic.hpp:109-119, 165-167, 201-207. -/
def ipMoveAssign (t : Ty) (self other : Option Nat) : Prog :=
  .call (t.quiet .moveTo) (.seq (ipDrop t self)
    (.call (t.quiet .moveTo) (match other with | some _ => .act .moveTo | none => .skip)))

/-! ### `mutex`, `shared_mutex` (alternative 0 is the value, alternative 1 the mutex type) -/

/-- A constructor: the value is constructed by `c`, then the mutex by its default constructor; if that throws, the value is
destroyed: mutex.hpp:79-102, shared_mutex.hpp:81-104. -/
def mtxCtor (spec : Bool) (c : Act) : Prog :=
  .call spec (.seq (.act c) (.cleanup (.act (.dflt 1)) (.dtor 0)))
/-- `mutex()`, `shared_mutex()`: mutex.hpp:83, shared_mutex.hpp:85. -/
def mtxDefault (t : Ty) : Prog := mtxCtor (ndc t 0) (.dflt 0)
/-- From `T const &`: mutex.hpp:91-93, shared_mutex.hpp:93-95. -/
def mtxFromCopy (t : Ty) : Prog := mtxCtor (ncc t 0) (.copyC 0)
/-- From `T &&`: mutex.hpp:95-97, shared_mutex.hpp:97-99. -/
def mtxFromMove (t : Ty) : Prog := mtxCtor (nmc t 0) (.moveC 0)
/-- In place: mutex.hpp:99-102, shared_mutex.hpp:101-104. -/
def mtxInPlace (t : Ty) : Prog := mtxCtor (nac t 0) (.brace 0)

/-! ### `ScopeExitGuard<F, Pol>` -/

/-- From `F &&`: defer.hpp:37-38. -/
def guardMove (t : Ty) : Prog := .call (nmc t 0) (.act (.moveC 0))
/-- From `F const &`: defer.hpp:40-41; `std::move` of a const reference copies. -/
def guardCopy (t : Ty) : Prog := .call (ncc t 0) (.act (.copyC 0))

/-! ### `integral_template_variant` (a `std::variant` over `n` alternatives) -/

/-- Constructor from `T<ix> const &`: integral_template_variant.hpp:71-75. -/
def itvFromCopy (t : Ty) (i : Nat) : Prog := .call (ncc t i) (.act (.copyC i))
/-- Constructor from `T<ix> &&`: integral_template_variant.hpp:77-81. -/
def itvFromMove (t : Ty) (i : Nat) : Prog := .call (nmc t i) (.act (.moveC i))
/-- In-place constructor: integral_template_variant.hpp:83-86. -/
def itvInPlace (t : Ty) (i : Nat) : Prog := .call (nac t i) (.act (.args i))
/-- Copy constructor: integral_template_variant.hpp:65 — `is_copy_constructible`, not the nothrow trait, so `true` whenever
the constructor exists. -/
def itvCopy (_t : Ty) (o : Option Nat) : Prog := .call true (onAlt .copyC o)
/-- Move constructor: integral_template_variant.hpp:66; the trait asks the `std::variant`, whose clause is over all
alternatives. -/
def itvMove (t : Ty) (n : Nat) (o : Option Nat) : Prog := .call (each n (nmc t)) (onAlt .moveC o)
/-- Copy assignment: integral_template_variant.hpp:67; `std::variant`'s copy assignment carries no clause, so the trait is
`false` unless every alternative is trivial. -/
def itvCopyAssign (t : Ty) (n : Nat) (self other : Option Nat) : Prog :=
  if each n (fun i => t.triv (.copyA i) && t.triv (.copyC i) && t.triv (.dtor i)) then .call true .skip
  else .call false (svCopyAssign t self other)
/-- Move assignment: integral_template_variant.hpp:68. -/
def itvMoveAssign (t : Ty) (n : Nat) (self other : Option Nat) : Prog :=
  .call (each n (fun i => nmc t i && nma t i)) (svMoveAssign t n self other)

end Verif.Noexcept
