/-!
# Lifetimes of the elements of tuples, with element operations that may throw

standard_layout_tuple is nested: an element `first` and a tuple `rest` of the others (standard_layout_tuple.hpp:67-71).
integral_template_tuple is derived from it and inherits its constructors (integral_template_tuple.hpp:39, 58). Every
element operation is an arbitrary program over a state `σ` of the user's and may throw; every element object gets a number
when it has been made, and the log says when objects were made and destroyed.

Simplified: destructors do not throw; element number `k` of the tuple stands for its type.
-/

namespace Verif.TupleLife

variable {σ V A : Type}

/-- What the element types can do; the number is the position (template arguments of standard_layout_tuple.hpp:67).
`none` and `true` as first component: an exception. A move also says what remains in the source. -/
structure Ops (σ V A : Type) where
  dflt : Nat → σ → Option V × σ
  make : Nat → A → σ → Option V × σ
  makeAll : Nat → List A → σ → Option V × σ
  copy : Nat → V → σ → Option V × σ
  move : Nat → V → σ → Option V × V × σ
  copyAssign : Nat → V → V → σ → Bool × V × σ
  moveAssign : Nat → V → V → σ → Bool × V × V × σ
  selfCopy : Nat → V → σ → Bool × V × σ
  selfMove : Nat → V → σ → Bool × V × σ
  destroy : Nat → V → σ → σ

/-- An element of a tuple (standard_layout_tuple.hpp:70). -/
structure Cell (V : Type) where
  id : Nat
  val : V
  deriving DecidableEq, Repr

/-- Beginning and end of the life of an object (of the members of standard_layout_tuple.hpp:70-71). -/
inductive Ev where
  | made (id : Nat)
  | gone (id : Nat)
  deriving DecidableEq, Repr

/-- The state: that of the user's code, the number of the next object, and the log (around standard_layout_tuple.hpp:67-145). -/
structure W (σ : Type) where
  user : σ
  next : Nat
  log : List Ev
  deriving Repr

/-- Construct the element at position `k` and then the rest (the constructors of standard_layout_tuple.hpp:74-94 initialise `first`, then
`rest`). If constructing the rest throws, `first` is destroyed. -/
def build (ops : Ops σ V A) : Nat → List (σ → Option V × σ) → W σ → Option (List (Cell V)) × W σ
  | _, [], w => (some [], w)
  | k, s :: ss, w =>
    match s w.user with
    | (none, u) => (none, { w with user := u })
    | (some v, u) =>
      match build ops (k + 1) ss ⟨u, w.next + 1, w.log ++ [.made w.next]⟩ with
      | (some cs, w') => (some (⟨w.next, v⟩ :: cs), w')
      | (none, w') => (none, ⟨ops.destroy k v w'.user, w'.next, w'.log ++ [.gone w.next]⟩)

/-- The destructor: `rest` first, then `first` (of standard_layout_tuple.hpp:70-71). -/
def destroyAll (ops : Ops σ V A) : Nat → List (Cell V) → W σ → W σ
  | _, [], w => w
  | k, c :: cs, w =>
    let w' := destroyAll ops (k + 1) cs w
    ⟨ops.destroy k c.val w'.user, w'.next, w'.log ++ [.gone c.id]⟩

/-- The element constructions of `standard_layout_tuple() = default` (standard_layout_tuple.hpp:74) from position `k` on. -/
def dfltSteps (ops : Ops σ V A) : Nat → Nat → List (σ → Option V × σ)
  | _, 0 => []
  | k, n + 1 => ops.dflt k :: dfltSteps ops (k + 1) n

/-- The element constructions of the constructor with one argument for each element (standard_layout_tuple.hpp:76-87). -/
def makeSteps (ops : Ops σ V A) : Nat → List A → List (σ → Option V × σ)
  | _, [] => []
  | k, a :: as => ops.make k a :: makeSteps ops (k + 1) as

/-- The element constructions of `uniform_construct`: each element from all the arguments, as lvalues (standard_layout_tuple.hpp:89-94). -/
def uniformSteps (ops : Ops σ V A) (args : List A) : Nat → Nat → List (σ → Option V × σ)
  | _, 0 => []
  | k, n + 1 => ops.makeAll k args :: uniformSteps ops args (k + 1) n

/-- The element constructions of the implicit copy constructor (standard_layout_tuple.hpp:67-71). -/
def copySteps (ops : Ops σ V A) : Nat → List (Cell V) → List (σ → Option V × σ)
  | _, [] => []
  | k, c :: cs => ops.copy k c.val :: copySteps ops (k + 1) cs

/-- The implicit move constructor (standard_layout_tuple.hpp:67-71): the new tuple (if nothing threw), and the source afterwards. -/
def moveAll (ops : Ops σ V A) : Nat → List (Cell V) → W σ → Option (List (Cell V)) × List (Cell V) × W σ
  | _, [], w => (some [], [], w)
  | k, c :: cs, w =>
    match ops.move k c.val w.user with
    | (none, left, u) => (none, ⟨c.id, left⟩ :: cs, { w with user := u })
    | (some v, left, u) =>
      match moveAll ops (k + 1) cs ⟨u, w.next + 1, w.log ++ [.made w.next]⟩ with
      | (some ds, cs', w') => (some (⟨w.next, v⟩ :: ds), ⟨c.id, left⟩ :: cs', w')
      | (none, cs', w') => (none, ⟨c.id, left⟩ :: cs', ⟨ops.destroy k v w'.user, w'.next, w'.log ++ [.gone w.next]⟩)

/-- The implicit copy assignment: `first`, then `rest` (standard_layout_tuple.hpp:67-71). Returns whether an exception was thrown. -/
def copyAssignAll (ops : Ops σ V A) : Nat → List (Cell V) → List (Cell V) → W σ → Bool × List (Cell V) × W σ
  | k, d :: ds, s :: ss, w =>
    match ops.copyAssign k d.val s.val w.user with
    | (true, v, u) => (true, ⟨d.id, v⟩ :: ds, { w with user := u })
    | (false, v, u) =>
      let r := copyAssignAll ops (k + 1) ds ss { w with user := u }
      (r.1, ⟨d.id, v⟩ :: r.2.1, r.2.2)
  | _, ds, _, w => (false, ds, w)

/-- The implicit move assignment (standard_layout_tuple.hpp:67-71): exception, target, source. -/
def moveAssignAll (ops : Ops σ V A) : Nat → List (Cell V) → List (Cell V) → W σ → Bool × List (Cell V) × List (Cell V) × W σ
  | k, d :: ds, s :: ss, w =>
    match ops.moveAssign k d.val s.val w.user with
    | (true, v, l, u) => (true, ⟨d.id, v⟩ :: ds, ⟨s.id, l⟩ :: ss, { w with user := u })
    | (false, v, l, u) =>
      let r := moveAssignAll ops (k + 1) ds ss { w with user := u }
      (r.1, ⟨d.id, v⟩ :: r.2.1, ⟨s.id, l⟩ :: r.2.2.1, r.2.2.2)
  | _, ds, ss, w => (false, ds, ss, w)

/-- The implicit assignments with the tuple itself on both sides (standard_layout_tuple.hpp:67-71): each element is assigned to itself by
`f`. -/
def selfAll (f : Nat → V → σ → Bool × V × σ) : Nat → List (Cell V) → W σ → Bool × List (Cell V) × W σ
  | _, [], w => (false, [], w)
  | k, c :: cs, w =>
    match f k c.val w.user with
    | (true, v, u) => (true, ⟨c.id, v⟩ :: cs, { w with user := u })
    | (false, v, u) =>
      let r := selfAll f (k + 1) cs { w with user := u }
      (r.1, ⟨c.id, v⟩ :: r.2.1, r.2.2)

/-- `std::swap` of two tuples (the template has no `swap` of its own, standard_layout_tuple.hpp:67-145): a temporary from the first, the first from
the second, the second from the temporary; the temporary is destroyed in any case. -/
def swapAll (ops : Ops σ V A) (a b : List (Cell V)) (w : W σ) : Bool × List (Cell V) × List (Cell V) × W σ :=
  match moveAll ops 0 a w with
  | (none, a1, w1) => (true, a1, b, w1)
  | (some t, a1, w1) =>
    match moveAssignAll ops 0 a1 b w1 with
    | (true, a2, b2, w2) => (true, a2, b2, destroyAll ops 0 t w2)
    | (false, a2, b2, w2) =>
      match moveAssignAll ops 0 b2 t w2 with
      | (thrown, b3, t3, w3) => (thrown, a2, b3, destroyAll ops 0 t3 w3)

/-- What a program does with tuples of one type with `n` elements, kept under names (standard_layout_tuple.hpp:67-145,
integral_template_tuple.hpp:39, 58). -/
inductive Op (A : Type) where
  | dflt (x : Nat)
  | individual (x : Nat) (args : List A)
  | uniform (x : Nat) (args : List A)
  | copy (x y : Nat)
  | move (x y : Nat)
  | copyAssign (x y : Nat)
  | moveAssign (x y : Nat)
  | swap (x y : Nat)
  | destroy (x : Nat)

/-- The tuples that exist, and the world (around standard_layout_tuple.hpp:67-145). -/
structure St (σ V : Type) where
  tuples : Nat → Option (List (Cell V))
  w : W σ

/-- Put a tuple under a name, or take it away (standard_layout_tuple.hpp:67-145: a variable). -/
def upd (m : Nat → Option (List (Cell V))) (x : Nat) (t : Option (List (Cell V))) : Nat → Option (List (Cell V)) :=
  fun y => if y = x then t else m y

/-- A constructor: the object exists afterwards iff nothing was thrown (standard_layout_tuple.hpp:74-94). -/
def construct (ops : Ops σ V A) (x : Nat) (steps : List (σ → Option V × σ)) (s : St σ V) : St σ V :=
  match build ops 0 steps s.w with
  | (some cs, w) => ⟨upd s.tuples x (some cs), w⟩
  | (none, w) => ⟨s.tuples, w⟩

/-- One operation (standard_layout_tuple.hpp:67-145); exceptions are caught by the program. `none`: not a program (a name is used
twice, does not exist, or the number of arguments is wrong). -/
def step (ops : Ops σ V A) (n : Nat) (s : St σ V) : Op A → Option (St σ V)
  | .dflt x => if (s.tuples x).isSome then none else some (construct ops x (dfltSteps ops 0 n) s)
  | .individual x args => if (s.tuples x).isSome ∨ args.length ≠ n then none else some (construct ops x (makeSteps ops 0 args) s)
  | .uniform x args => if (s.tuples x).isSome then none else some (construct ops x (uniformSteps ops args 0 n) s)
  | .copy x y =>
    match s.tuples x, s.tuples y with
    | none, some src => some (construct ops x (copySteps ops 0 src) s)
    | _, _ => none
  | .move x y =>
    match s.tuples x, s.tuples y with
    | none, some src =>
      match moveAll ops 0 src s.w with
      | (some cs, src', w) => some ⟨upd (upd s.tuples y (some src')) x (some cs), w⟩
      | (none, src', w) => some ⟨upd s.tuples y (some src'), w⟩
    | _, _ => none
  | .copyAssign x y =>
    if x = y then (s.tuples x).map fun cs => ⟨upd s.tuples x (some (selfAll ops.selfCopy 0 cs s.w).2.1), (selfAll ops.selfCopy 0 cs s.w).2.2⟩ else
    match s.tuples x, s.tuples y with
    | some dst, some src =>
      let r := copyAssignAll ops 0 dst src s.w
      some ⟨upd s.tuples x (some r.2.1), r.2.2⟩
    | _, _ => none
  | .moveAssign x y =>
    if x = y then (s.tuples x).map fun cs => ⟨upd s.tuples x (some (selfAll ops.selfMove 0 cs s.w).2.1), (selfAll ops.selfMove 0 cs s.w).2.2⟩ else
    match s.tuples x, s.tuples y with
    | some dst, some src =>
      let r := moveAssignAll ops 0 dst src s.w
      some ⟨upd (upd s.tuples y (some r.2.2.1)) x (some r.2.1), r.2.2.2⟩
    | _, _ => none
  | .swap x y =>
    if x = y then none else
    match s.tuples x, s.tuples y with
    | some a, some b =>
      let r := swapAll ops a b s.w
      some ⟨upd (upd s.tuples y (some r.2.2.1)) x (some r.2.1), r.2.2.2⟩
    | _, _ => none
  | .destroy x =>
    match s.tuples x with
    | some cs => some ⟨upd s.tuples x none, destroyAll ops 0 cs s.w⟩
    | none => none

/-- A program (uses of standard_layout_tuple.hpp:67-145). -/
def run (ops : Ops σ V A) (n : Nat) : St σ V → List (Op A) → Option (St σ V)
  | s, [] => some s
  | s, o :: os => (step ops n s o).bind fun s' => run ops n s' os

/-- No tuple exists yet, before any use of standard_layout_tuple.hpp:67-145. -/
def start (u : σ) : St σ V := ⟨fun _ => none, ⟨u, 0, []⟩⟩

end Verif.TupleLife
