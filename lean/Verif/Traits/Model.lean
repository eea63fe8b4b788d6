/-!
# What the class templates declare, and what of it compiles

Type traits (`std::is_copy_constructible` and so on), and with them concepts, overload resolution and the code that asks them, see only declarations.
A member function of a class template may be declared although its body cannot be instantiated for the given arguments; then the trait is true and
the program that believes it does not compile.  This file models, for the class templates of the library, the special member functions and `swap`: how
they are declared (deleted, constrained, unconstrained, defaulted) and which operations of the element types the bodies use.

Simplified: every type has a usable destructor; braces and parentheses construct alike (see `Init/BraceModel.lean` for the difference); exception
specifications are not modelled (see `Noexcept/Model.lean`); the templates of the standard library are modelled as cppreference describes them.
-/
namespace Verif.Traits

/-- What can be said about an operation of a type: not available (deleted or not declared), declared although its definition does not compile, available,
available and trivial; asked e.g. in variant2.hpp:205-211, 304-307. -/
inductive Cap where
  | no | lie | user | trivial
  deriving DecidableEq, Repr

/-- The operations: default constructor, copy and move constructor, copy and move assignment, `swap` (variant2.hpp:199-511, 718-722). -/
inductive Op where
  | dflt | copyC | moveC | copyA | moveA | swp
  deriving DecidableEq, Repr

/-- A type: its operations (an rvalue is passed to `moveC` and `moveA`), and whether the destructor is trivial (the parameters `T`, `U` of variant2.hpp:178). -/
structure Ty where
  cap : Op → Cap
  trivDtor : Bool

/-- The traits `std::is_..._constructible`, `std::is_..._assignable`, `std::is_swappable`: asked e.g. in polymorphic_allocator.hpp:195. -/
def Ty.reports (t : Ty) (o : Op) : Bool := decide (t.cap o ≠ .no)

/-- Whether a program that uses the operation compiles (e.g. variant2.hpp:214, 218). -/
def Cap.works : Cap → Bool
  | .user => true
  | .trivial => true
  | _ => false

/-- Constructors are only trivially usable if the destructor is trivial as well (the traits of variant2.hpp:205, 233; `swap` is never trivial). -/
def Ty.isTriv (t : Ty) : Op → Bool
  | .dflt => decide (t.cap .dflt = .trivial) && t.trivDtor
  | .copyC => decide (t.cap .copyC = .trivial) && t.trivDtor
  | .moveC => decide (t.cap .moveC = .trivial) && t.trivDtor
  | .copyA => decide (t.cap .copyA = .trivial)
  | .moveA => decide (t.cap .moveA = .trivial)
  | .swp => false

/-- The weaker of two: `no`, then `lie`, then `user`, then `trivial` (for members, e.g. standard_layout_tuple.hpp:70-74). -/
def Cap.weaker : Cap → Cap → Cap
  | .no, _ => .no
  | _, .no => .no
  | .lie, _ => .lie
  | _, .lie => .lie
  | .user, _ => .user
  | _, .user => .user
  | .trivial, .trivial => .trivial

/-- A defaulted function does the same to all members: deleted if it is deleted for one, trivial if it is trivial for all (e.g. flex_array.hpp:280-285). -/
def defaulted (rs : List Cap) : Cap := rs.foldr Cap.weaker .trivial

/-- A function written out and constrained by the traits of what it uses (e.g. limit_allocator.hpp:163-169). -/
def constrained (rs : List Cap) : Cap := Cap.weaker .user (defaulted rs)

/-- A function written out without constraints: declared in any case (e.g. channel.hpp:237-262). -/
def free (rs : List Cap) : Cap := if rs.all Cap.works then .user else .lie

/-- A move operation that is not available is ignored, the rvalue is copied (for the defaulted ones e.g. flex_array.hpp:282, 284, for constrained ones
inplace_polymorphic.hpp:165, 201). -/
def Cap.orElse (m c : Cap) : Cap := if m = .no then c else m

/-- `std::swap` for a type without an own `swap` (called at flex_array.hpp:418). -/
def stdSwap (moveC moveA : Cap) : Cap := constrained [moveC, moveA]

/-! ### Templates of the standard library that are members -/

/-- A class whose functions are all defaulted, with members `ms` (standard_layout_tuple.hpp:67-74, integral_template_tuple.hpp:38-58; explicitly in flex_array.hpp:280-285). -/
def aggregate (ms : List Ty) : Ty where
  cap
    | .dflt => defaulted (ms.map (·.cap .dflt))
    | .copyC => defaulted (ms.map (·.cap .copyC))
    | .moveC => (defaulted (ms.map (·.cap .moveC))).orElse (defaulted (ms.map (·.cap .copyC)))
    | .copyA => defaulted (ms.map (·.cap .copyA))
    | .moveA => (defaulted (ms.map (·.cap .moveA))).orElse (defaulted (ms.map (·.cap .copyA)))
    | .swp => stdSwap ((defaulted (ms.map (·.cap .moveC))).orElse (defaulted (ms.map (·.cap .copyC))))
        ((defaulted (ms.map (·.cap .moveA))).orElse (defaulted (ms.map (·.cap .copyA))))
  trivDtor := ms.all (·.trivDtor)

/-- `std::variant` (for integral_template_variant.hpp:44, polymorphic_allocator.hpp:90-104): copying and moving are constrained by the alternatives, trivial
if everything they may do is trivial. -/
def stdVariant (ts : List Ty) : Ty where
  cap
    | .dflt => match ts with
      | [] => .no
      | t :: _ => constrained [t.cap .dflt]
    | .copyC => copyC
    | .moveC => moveC
    | .copyA => copyA
    | .moveA => moveA
    | .swp => constrained (ts.map (·.cap .moveC) ++ ts.map (·.cap .swp))
  trivDtor := ts.all (·.trivDtor)
where
  copyC := if ts.all (·.isTriv .copyC) then .trivial else constrained (ts.map (·.cap .copyC))
  moveC := if ts.all (·.isTriv .moveC) then .trivial else (constrained (ts.map (·.cap .moveC))).orElse copyC
  copyA := if ts.all fun t => t.isTriv .copyC && t.isTriv .copyA then .trivial
    else constrained (ts.map (·.cap .copyC) ++ ts.map (·.cap .copyA))
  moveA := if ts.all fun t => t.isTriv .moveC && t.isTriv .moveA then .trivial
    else (constrained (ts.map (·.cap .moveC) ++ ts.map (·.cap .moveA))).orElse copyA

/-- `std::optional<T>` (for channel.hpp:226, exchange_channel.hpp:163, defer.hpp:31): like a variant, and always default constructible. -/
def stdOptional (t : Ty) : Ty where
  cap
    | .dflt => .user
    | o => (stdVariant [t]).cap o
  trivDtor := t.trivDtor

/-- `std::vector<T>` (for flex_array.hpp:133): nothing is constrained; moving and swapping do not touch the elements. -/
def stdVector (t : Ty) : Ty where
  cap
    | .dflt => .user
    | .copyC => free [t.cap .copyC]
    | .moveC => .user
    | .copyA => free [t.cap .copyC, t.cap .copyA]
    | .moveA => .user
    | .swp => .user
  trivDtor := false

/-- `ankerl::svector<T, n>` (for flex_array.hpp:163): nothing is constrained; elements in the small buffer are moved one by one; assignments destroy and
construct. -/
def svector (t : Ty) : Ty where
  cap
    | .dflt => .user
    | .copyC => free [t.cap .copyC]
    | .moveC => free [t.cap .moveC]
    | .copyA => free [t.cap .copyC]
    | .moveA => free [t.cap .moveC]
    | .swp => free [t.cap .moveC]
  trivDtor := false

/-- `std::shared_ptr` (for limit_allocator.hpp:92, pool_allocator.hpp:149). -/
def sharedPtr : Ty := ⟨fun _ => .user, false⟩

/-- `size_t size_ = 0` (flex_array.hpp:62): a member with an initializer. -/
def sizeMember : Ty where
  cap
    | .dflt => .user
    | .swp => .user
    | _ => .trivial
  trivDtor := true

/-! ### The templates of the library -/

/-- `variant2<T, U>` (variant2.hpp:199-257, 303-511, 718-722): every function exists in a trivial version, for trivial alternatives, and a version written out,
for all others; neither is constrained further. -/
def variant2 (t u : Ty) : Ty where
  cap
    | .dflt => free [t.cap .dflt]
    | .copyC => if t.isTriv .copyC && u.isTriv .copyC then .trivial else free [t.cap .copyC, u.cap .copyC]
    | .moveC => moveC
    | .copyA => if t.isTriv .copyA && u.isTriv .copyA then .trivial
      else free [t.cap .copyA, t.cap .copyC, u.cap .copyA, u.cap .copyC]
    | .moveA => moveA
    | .swp => free [moveC, moveA]
  trivDtor := t.trivDtor && u.trivDtor
where
  moveC := if t.isTriv .moveC && u.isTriv .moveC then .trivial else free [t.cap .moveC, u.cap .moveC]
  moveA := if t.isTriv .moveA && u.isTriv .moveA then .trivial
    else free [t.cap .moveA, t.cap .moveC, u.cap .moveA, u.cap .moveC]

/-- The four kinds of `flex_array` (flex_array.hpp:22-27). -/
inductive Mode where
  | static | limited | vector | sbo
  deriving DecidableEq, Repr

/-- `flex_array_inner` (flex_array.hpp:34-56, 57-128, 129-154, 157-238); a `std::array` of at least one element behaves like its element. -/
def flexInner (m : Mode) (t : Ty) : Ty := match m with
  | .static => aggregate [t]
  | .limited => aggregate [sizeMember, t]
  | .vector => aggregate [stdVector t]
  | .sbo => aggregate [svector t]

/-- `flex_array` (flex_array.hpp:280-285, 417-419): everything defaulted, `swap` unconstrained. -/
def flexArray (m : Mode) (t : Ty) : Ty where
  cap
    | .swp => free [(flexInner m t).cap .swp]
    | o => (aggregate [flexInner m t]).cap o
  trivDtor := (flexInner m t).trivDtor

/-- The iterators of `channel` and `exchange_channel` (channel.hpp:237-262, exchange_channel.hpp:175-200): written out, unconstrained, on top of an `optional`
which is constrained; move assignment swaps the optionals. -/
def channelIter (t : Ty) : Ty where
  cap
    | .dflt => .no
    | .copyC => free [(stdOptional t).cap .copyC]
    | .moveC => free [(stdOptional t).cap .moveC]
    | .copyA => free [(stdOptional t).cap .copyA]
    | .moveA => free [(stdOptional t).cap .swp]
    | .swp => stdSwap (free [(stdOptional t).cap .moveC]) (free [(stdOptional t).cap .swp])
  trivDtor := t.trivDtor

/-- `channel` (channel.hpp:40-51), `pool` (pool_allocator.hpp:84-92) and `exchange_channel` (exchange_channel.hpp:38-46): not copyable, not movable; a `channel` needs
a capacity. -/
def pinned (dflt : Cap) : Ty where
  cap
    | .dflt => dflt
    | _ => .no
  trivDtor := false

/-- `mutex<T, Mutex>`, `shared_mutex<T, Mutex>` (mutex.hpp:83-89, shared_mutex.hpp:85-91). -/
def mutex (t m : Ty) : Ty where
  cap
    | .dflt => defaulted [t.cap .dflt, m.cap .dflt]
    | _ => .no
  trivDtor := t.trivDtor && m.trivDtor

/-- The guards (mutex.hpp:42-47, shared_mutex.hpp:44-49): a pointer and a `std::unique_lock` or `std::shared_lock`, whatever `T` is. For lvalues that are not `const`,
`std::swap` is preferred to the own `swap` (mutex.hpp:57-61), which takes references to `const`. -/
def guard : Ty where
  cap
    | .dflt => .no
    | .copyC => .no
    | .copyA => .no
    | .moveC => .user
    | .moveA => .user
    | .swp => stdSwap .user .user
  trivDtor := false

/-- `swap` of two `const` guards (mutex.hpp:57-61, shared_mutex.hpp:59-63): declared; the members of `const` guards cannot be swapped. -/
def guardConstSwap : Cap := free [.no]

/-- `ScopeExitGuard` (defer.hpp:35, 43-46). -/
def scopeGuard : Ty := pinned .user

/-- `inplace_polymorphic<Base, Ts...>` (inplace_polymorphic.hpp:126, 154, 165, 180, 201, 209): constrained by whether the first class has a default constructor and whether
the base class has `copy_to` and `move_to`. -/
def inplace (first : Ty) (hasCopy hasMove : Bool) : Ty where
  cap
    | .dflt => constrained [first.cap .dflt]
    | .copyC => copy
    | .copyA => copy
    | .moveC => move
    | .moveA => move
    | .swp => stdSwap move move
  trivDtor := false
where
  copy := if hasCopy then .user else .no
  move := (if hasMove then Cap.user else .no).orElse copy

/-- `integral_template_variant` (integral_template_variant.hpp:64-69): defaulted, around a `std::variant`. -/
def integralVariant (ts : List Ty) : Ty := aggregate [stdVariant ts]

/-- `standard_layout_tuple` (standard_layout_tuple.hpp:47, 67-74) and `integral_template_tuple` (integral_template_tuple.hpp:37-58), which derives from it. -/
def tuple (ts : List Ty) : Ty := aggregate ts

/-- What a `polymorphic_allocator` holds (polymorphic_allocator.hpp:90-104, 136-137, 246): the only allocator, a `variant2` of two, a `std::variant` of more. -/
def polyInner (ts : List Ty) : Ty := match ts with
  | [t] => t
  | [t, u] => variant2 t u
  | _ => stdVariant ts

/-- A class with defaulted functions and a `swap` that is constrained by what it holds; if the constraint is not met, `std::swap` is used
(polymorphic_allocator.hpp:194-198, 295-299, 402-407, limit_allocator.hpp:163-169). -/
def withSwap (a : Ty) (inner : Cap) (dflt : Cap) : Ty where
  cap
    | .dflt => dflt
    | .swp => (constrained [inner]).orElse (a.cap .swp)
    | o => a.cap o
  trivDtor := a.trivDtor

/-- `polymorphic_allocator` (polymorphic_allocator.hpp:143, 170-176, 194-198, 251, 276-282, 295-299). -/
def polyAlloc (ts : List Ty) : Ty :=
  withSwap (aggregate [polyInner ts]) ((polyInner ts).cap .swp) ((aggregate [polyInner ts]).cap .dflt)

/-- `limit_allocator` (limit_allocator.hpp:105-115, 163-169): it needs a limit. -/
def limitAlloc (t : Ty) : Ty := withSwap (aggregate [sharedPtr, t]) (t.cap .swp) .no

/-- `offset_ptr_stl_allocator` (polymorphic_allocator.hpp:355-360, 402-407). -/
def offsetAlloc (t : Ty) : Ty := withSwap (aggregate [t]) (t.cap .swp) ((aggregate [t]).cap .dflt)

/-- `pool_allocator` (pool_allocator.hpp:155-167, 190-193). -/
def poolAlloc : Ty := withSwap (aggregate [sharedPtr]) .user .user

/-- `basic_static_string` with an allocator `a` (static_string.hpp:59-61, 75-119, 215-220): nothing is constrained; whether the allocator is assigned and swapped is
decided by its propagation traits. -/
def staticString (a : Ty) (pocca pocma : Bool) : Ty where
  cap
    | .dflt => free [a.cap .dflt, a.cap .copyC]
    | .copyC => free [a.cap .copyC]
    | .moveC => free [a.cap .moveC]
    | .copyA => free (if pocca then [a.cap .copyA] else [])
    | .moveA => free (if pocma then [a.cap .swp] else [])
    | .swp => free [a.cap .swp]
  trivDtor := false

/-- `pointer_tag_pair` (pointer_tag_pair.hpp:46-60, 100-102). -/
def pointerTagPair : Ty := aggregate [sizeMember]

/-! ### Constructors from values -/

/-- The constructors of `variant2`, `mutex` and `shared_mutex` from `T const &` and `T &&` (variant2.hpp:259-277, mutex.hpp:91-97, shared_mutex.hpp:93-99): not constrained. -/
def fromValue (t : Ty) (rvalue : Bool) : Cap := free [t.cap (if rvalue then .moveC else .copyC)]

/-- The constructors in place of `variant2`, `mutex`, `shared_mutex` and `polymorphic_allocator` (variant2.hpp:279-301, mutex.hpp:99-102, shared_mutex.hpp:101-104,
polymorphic_allocator.hpp:145-153): not constrained; `c` is the construction of the object from the arguments. -/
def inPlace (c : Cap) : Cap := free [c]

/-- The same constructors of `std::variant` are constrained; `integral_template_variant`'s own one for `T<ix>` is not (integral_template_variant.hpp:71-86). -/
def stdInPlace (c : Cap) : Cap := constrained [c]

end Verif.Traits
