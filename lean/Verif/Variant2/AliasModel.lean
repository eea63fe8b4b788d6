import Verif.Variant2.Model

/-!
Model of the assignments and of `emplace` of `variant2` when the argument lives inside the variant it is assigned to, as the
tail of a list or the branch of a tree whose nodes are variants does, and of destructors that throw (variant2.hpp:14-24, 303-327,
333-418, 424-511, 513-631, 649-716).

Simplified: nothing but (in the last part) destructors throws; moves and copies of elements transfer the value; what the source
of a move is left with is in `Verif.Variant2.Model`. An element owns further variants (think of a `std::unique_ptr` or a
`std::vector` to them as a member of the element); they are destroyed with it.
-/
namespace Verif.Variant2

/-- A variant with everything it owns: an element has a value of its own and owns variants (variant2.hpp:192-196). -/
inductive Tree (V : Type) where
  | valueless
  | node (x : Alt) (v : V) (kids : List (Tree V))

/-- The value of an element: its own part and the variants it owns (of the types in variant2.hpp:192-195). -/
abbrev Elem (V : Type) := V × List (Tree V)

variable {V : Type}

/-- The variant as the code sees it: discriminant and union (variant2.hpp:192-196). -/
def Tree.var : Tree V → Var (Elem V)
  | .valueless => ⟨.valueless, none⟩
  | .node x v ks => ⟨x.disc, some (x, v, ks)⟩

/-- The variants owned by the element of a variant (of the types in variant2.hpp:192-195). -/
def Tree.kids : Tree V → List (Tree V)
  | .valueless => []
  | .node _ _ ks => ks

/-- The variant one gets to by following, from child to child, the given positions (of the types in variant2.hpp:192-195). -/
def Tree.at (t : Tree V) : List Nat → Option (Tree V)
  | [] => some t
  | i :: p => match t.kids[i]? with
    | none => none
    | some k => k.at p

/-- During an assignment: `*this`, the object the argument refers to (`none`: it has been destroyed), and whether that is owned
by the element of `*this` (variant2.hpp:333-418, 424-511, 513-631, 649-716). -/
structure Run (V S : Type) where
  self : Var (Elem V)
  src : Option S
  inside : Bool

variable {S : Type}

/-- `a_.~T()` / `b_.~U()` of `*this`: everything the element owns is destroyed with it (e.g. variant2.hpp:350, 354, 369). -/
def Run.destroyOwn (r : Run V S) (x : Alt) : Except Err (Run V S) :=
  (destroyAs x r.self.store).bind fun st =>
  .ok { r with self := { r.self with store := st }, src := if r.inside then none else r.src }

/-- `other.discriminant_` (variant2.hpp:344, 367, 387, 415). -/
def Run.srcDisc (r : Run V (Var (Elem V))) : Except Err Disc :=
  match r.src with
  | none => .error .readDead
  | some o => .ok o.disc

/-- `other.a_` / `other.b_` (variant2.hpp:346, 351, 370, 374, 389, 393). -/
def Run.srcMember (r : Run V (Var (Elem V))) (x : Alt) : Except Err (Elem V) :=
  match r.src with
  | none => .error .readDead
  | some o => readAs x o.store

/-- `new (&a_) T{other.a_}` / `new (&b_) U{other.b_}` (variant2.hpp:351, 370, 389, 393). -/
def Run.constructFrom (r : Run V (Var (Elem V))) (x : Alt) : Except Err (Run V (Var (Elem V))) :=
  (r.srcMember x).bind fun v => (constructAs x v false r.self.store).bind fun s =>
  .ok { r with self := { r.self with store := s.join } }

/-- `a_ = other.a_` / `b_ = other.b_` (variant2.hpp:346, 374): the element takes over the value of the other one. If it does so
by replacing the variants it owns, these are destroyed: `keeps` tells for which alternative the assignment of elements keeps
them. -/
def Run.assignFrom (keeps : Alt → Bool) (r : Run V (Var (Elem V))) (x : Alt) : Except Err (Run V (Var (Elem V))) :=
  (r.srcMember x).bind fun v => (readAs x r.self.store).bind fun _ =>
  .ok { r with self := { r.self with store := some (x, v) }, src := if r.inside && !keeps x then none else r.src }

/-- The nested `switch` of copy and move assignment (variant2.hpp:342-413, 432-506). -/
def Run.body (keeps : Alt → Bool) (r : Run V (Var (Elem V))) (d : Disc) : Except Err (Run V (Var (Elem V))) :=
  match r.self.disc, d with
  | .first, .first => r.assignFrom keeps .a
  | .first, .second => (r.destroyOwn .a).bind fun r => r.constructFrom .b
  | .first, .valueless => r.destroyOwn .a
  | .second, .first => (r.destroyOwn .b).bind fun r => r.constructFrom .a
  | .second, .second => r.assignFrom keeps .b
  | .second, .valueless => r.destroyOwn .b
  | .valueless, .first => r.constructFrom .a
  | .valueless, .second => r.constructFrom .b
  | .valueless, .valueless => .ok r

/-- Copy and move assignment from a different variant (variant2.hpp:342-417, 432-510): the `switch`, then
`discriminant_ = other.discriminant_`. -/
def Run.assign (keeps : Alt → Bool) (r : Run V (Var (Elem V))) : Except Err (Var (Elem V)) :=
  r.srcDisc.bind fun d => (r.body keeps d).bind fun r => r.srcDisc.bind fun d => .ok { r.self with disc := d }

/-- `t = o` for a variant `o` that is not inside of `t` (variant2.hpp:333-418, 424-511). -/
def assignOutside (keeps : Alt → Bool) (t o : Tree V) : Except Err (Var (Elem V)) :=
  Run.assign keeps ⟨t.var, some o.var, false⟩

/-- `t = o` for the variant `o` one gets to from `t` by the positions `p`, which are not empty (variant2.hpp:333-418, 424-511);
`none`: there is no such variant. -/
def assignInside (keeps : Alt → Bool) (t : Tree V) (p : List Nat) : Option (Except Err (Var (Elem V))) :=
  (t.at p).map fun o => Run.assign keeps ⟨t.var, some o.var, true⟩

/-- Move assignment of `std::variant` in the same situation, for comparison ([variant.assign]; C71 compares the rest): with the same
alternative `get<j>(*this) = get<j>(std::move(rhs))`, with a different one `emplace<j>(get<j>(std::move(rhs)))`, and the index of
the source is read once, before (the class variant2.hpp:173 replaces). -/
def Run.stdAssign (keeps : Alt → Bool) (r : Run V (Var (Elem V))) : Except Err (Var (Elem V)) :=
  r.srcDisc.bind fun d => (r.body keeps d).bind fun r => .ok { r.self with disc := d }

/-- `std::variant`: `t = std::move(o)` for the variant `o` one gets to from `t` by the positions `p`; compare
variant2.hpp:424-511. -/
def stdAssignInside (keeps : Alt → Bool) (t : Tree V) (p : List Nat) : Option (Except Err (Var (Elem V))) :=
  (t.at p).map fun o => Run.stdAssign keeps ⟨t.var, some o.var, true⟩

/-- The value the argument refers to (variant2.hpp:513-631, 649-716). -/
def Run.srcValue (r : Run V (Elem V)) : Except Err (Elem V) :=
  match r.src with
  | none => .error .readDead
  | some v => .ok v

/-- `new (&a_) T{value}` and `discriminant_ = ...` (variant2.hpp:524-528, 556-560, 583-587, 613-617, 649-716). -/
def Run.constructValue (r : Run V (Elem V)) (x : Alt) : Except Err (Var (Elem V)) :=
  r.srcValue.bind fun v => (constructAs x v false r.self.store).bind fun s => .ok ⟨x.disc, s.join⟩

/-- `t = value` for a value of alternative `x` (variant2.hpp:513-631). -/
def Run.assignValue (r : Run V (Elem V)) (x : Alt) : Except Err (Var (Elem V)) :=
  match x, r.self.disc with
  | .a, .first => r.srcValue.bind fun v => (readAs .a r.self.store).bind fun _ => .ok ⟨.first, some (.a, v)⟩
  | .a, .second => (r.destroyOwn .b).bind fun r => r.constructValue .a
  | .a, .valueless => r.constructValue .a
  | .b, .first => (r.destroyOwn .a).bind fun r => r.constructValue .b
  | .b, .second => r.srcValue.bind fun v => (readAs .b r.self.store).bind fun _ => .ok ⟨.second, some (.b, v)⟩
  | .b, .valueless => r.constructValue .b

/-- `t.emplace<X>(arg)` with an `X` made from the object `arg` refers to by taking over its value (variant2.hpp:649-716). -/
def Run.emplace (r : Run V (Elem V)) (x : Alt) : Except Err (Var (Elem V)) :=
  match x, r.self.disc with
  | .a, .first => (r.destroyOwn .a).bind fun r => r.constructValue .a
  | .a, .second => (r.destroyOwn .b).bind fun r => r.constructValue .a
  | .a, .valueless => r.constructValue .a
  | .b, .first => (r.destroyOwn .a).bind fun r => r.constructValue .b
  | .b, .second => (r.destroyOwn .b).bind fun r => r.constructValue .b
  | .b, .valueless => r.constructValue .b

/-- The element a variant holds (variant2.hpp:192-196). -/
def Tree.elem : Tree V → Option (Alt × Elem V)
  | .valueless => none
  | .node x v ks => some (x, v, ks)

/-- The call with an argument outside of `t` (variant2.hpp:513-631, 649-716). -/
def Run.outside (t : Tree V) (v : Elem V) : Run V (Elem V) := ⟨t.var, some v, false⟩

/-- The call with the element of the variant one gets to from `t` by `p` (the element of `t` itself if `p` is empty), which is
of alternative `.1` (variant2.hpp:513-631, 649-716). -/
def Run.within (t : Tree V) (p : List Nat) : Option (Alt × Run V (Elem V)) :=
  match t.at p with
  | none => none
  | some o => o.elem.map fun e => (e.1, ⟨t.var, some e.2, true⟩)

/-! ### Destructors that throw

`dthr` tells whether the destructor of the element throws; its lifetime is over then, too. -/

variable {W : Type}

/-- `v = other` (copy or move) with different alternatives: the destructor is called outside of the `try` block, so an exception
from it leaves the discriminant alone (variant2.hpp:349-356, 368-379, 439-448, 460-469). `w` is what the constructor makes. -/
def assignDtor (s : Var W) (y : Option (Alt × W)) (dthr : Bool) : Except Err (Var W × Bool) :=
  match s.disc with
  | .valueless => match y with
    | none => .ok (s, false)
    | some (x, w) => rawConstruct .valueless x w false s.store
  | .first => (destroyAs .a s.store).bind fun st =>
    if dthr then .ok (⟨.first, st⟩, true)
    else match y with
      | none => .ok (⟨.valueless, st⟩, false)
      | some (x, w) => tryConstruct x w false st
  | .second => (destroyAs .b s.store).bind fun st =>
    if dthr then .ok (⟨.second, st⟩, true)
    else match y with
      | none => .ok (⟨.valueless, st⟩, false)
      | some (x, w) => tryConstruct x w false st

/-- `v.emplace<X>(...)`: the destructor is called inside of the `try` block (variant2.hpp:649-706). -/
def emplaceDtor (s : Var W) (x : Alt) (w : W) (dthr : Bool) : Except Err (Var W × Bool) :=
  match s.disc with
  | .valueless => tryConstruct x w false s.store
  | .first => (destroyAs .a s.store).bind fun st =>
    if dthr then .ok (⟨.valueless, st⟩, true) else tryConstruct x w false st
  | .second => (destroyAs .b s.store).bind fun st =>
    if dthr then .ok (⟨.valueless, st⟩, true) else tryConstruct x w false st

end Verif.Variant2
