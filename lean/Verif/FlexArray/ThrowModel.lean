import Verif.FlexArray.ValueModel

/-!
Model of the constructors, conversions and `resize` of `flex_array` (flex_array.hpp:280-372, 386-394) with elements, iterators and
allocators that throw, and with a count of the element objects that are alive.

Everything that may throw asks an oracle: whether the `n`-th such action of the program throws. Constructors that throw destroy the
elements the array already has, as the language prescribes for its member.
-/
namespace Verif.FlexArray

/-- Number of actions so far that could throw, and the element objects alive (of flex_array.hpp:40, 63, 134, 162). -/
structure World where
  n : Nat
  live : Int
  deriving DecidableEq, Repr

/-- Exceptions: one thrown by an element, an iterator or an allocator, `std::length_error` (flex_array.hpp:297, 305, 324, 334, 357),
`std::invalid_argument` (flex_array.hpp:389). -/
inductive Exn where
  | fault
  | length
  | invalid
  deriving DecidableEq, Repr

/-- How a call ends; `terminate`: an exception reached a `noexcept` (flex_array.hpp:280-285, 367). -/
inductive Out (β : Type) where
  | ok (b : β)
  | threw (e : Exn)
  | terminate
  deriving DecidableEq, Repr

/-- A part of a call (of flex_array.hpp:280-394). -/
abbrev M (β : Type) := World → Out β × World

/-- Which actions throw (flex_array.hpp:280-394). -/
abbrev Oracle := Nat → Bool

/-- One thing after another (flex_array.hpp:280-394). -/
def M.andThen {β γ : Type} (m : M β) (f : β → M γ) : M γ := fun w =>
  match m w with
  | (.ok b, w') => f b w'
  | (.threw e, w') => (.threw e, w')
  | (.terminate, w') => (.terminate, w')

/-- The end of a part (flex_array.hpp:280-394). -/
def M.done {β : Type} (b : β) : M β := fun w => (.ok b, w)

/-- `throw` (flex_array.hpp:297, 305, 324, 334, 357, 389). -/
def M.raise {β : Type} (e : Exn) : M β := fun w => (.threw e, w)

/-- Something that may throw: constructing, copying or assigning an element, dereferencing an iterator, allocating memory
(flex_array.hpp:40, 63, 309, 338, 340, 360, 371, 393). -/
def M.act (o : Oracle) : M Unit := fun w =>
  if o w.n then (.threw .fault, { w with n := w.n + 1 }) else (.ok (), { w with n := w.n + 1 })

/-- `k` elements have come to life (flex_array.hpp:40, 63, 134, 162). -/
def M.born (k : Int) : M Unit := fun w => (.ok (), { w with live := w.live + k })

/-- Destroy `k` elements when an exception passes (the members of flex_array.hpp:277 when a constructor throws, and what a vector
does to the elements of a buffer it gives up). -/
def M.unwind {β : Type} (k : Int) (m : M β) : M β := fun w =>
  match m w with
  | (.threw e, w') => (.threw e, { w' with live := w'.live - k })
  | r => r

/-- `noexcept` (flex_array.hpp:280-285, 367). -/
def M.noexc {β : Type} (m : M β) : M β := fun w =>
  match m w with
  | (.threw _, w') => (.terminate, w')
  | r => r

/-- Create `k` elements one after the other; if one throws, those before it are destroyed (flex_array.hpp:40, 63: the members of a
`std::array`; flex_array.hpp:148-150: the elements a vector appends). -/
def build (o : Oracle) : Nat → M Unit
  | 0 => M.done ()
  | k + 1 => (M.act o).andThen fun _ => (M.born 1).andThen fun _ => (build o k).unwind 1

/-- Assign to `k` elements one after the other (`std::ranges::copy`, flex_array.hpp:309, 360, 371). -/
def assignN (o : Oracle) : Nat → M Unit
  | 0 => M.done ()
  | k + 1 => (M.act o).andThen fun _ => assignN o k

/-- What is known of the element type and of the vector: elements move without throwing (then a vector moves its elements to a new
buffer, else it copies them), and the capacity after the next reallocation (`std::vector` of flex_array.hpp:134). -/
structure Vec where
  nothrowMove : Bool
  grow : Nat → Nat

/-- Transfer `k` elements to a new buffer and destroy them in the old one (`std::vector`, flex_array.hpp:149, 340). -/
def transfer (o : Oracle) (v : Vec) (k : Nat) : M Unit :=
  match v.nothrowMove with
  | true => M.done ()
  | false => (build o k).andThen fun _ => M.born (-k)

variable {α : Type}

/-- `std::vector::resize` to `k` elements with capacity `cap` (flex_array.hpp:148-150): nothing is changed if it throws. -/
def vecResize (o : Oracle) (v : Vec) (env : Env α) (cap : Nat) (a : FA α) (k : Nat) : M (FA α) :=
  if k ≤ a.data.length then (M.born (-((a.data.length - k : Nat) : Int))).andThen fun _ => M.done (setSize env .dynamic a k)
  else if k ≤ cap then (build o (k - a.data.length)).andThen fun _ => M.done (setSize env .dynamic a k)
  else (M.act o).andThen fun _ => (build o (k - a.data.length)).andThen fun _ =>
    ((transfer o v a.data.length).unwind ((k - a.data.length : Nat) : Int)).andThen fun _ => M.done (setSize env .dynamic a k)

/-- `push_back` of the elements of a range, each read from an iterator (flex_array.hpp:328-341); if one throws, the vector is
destroyed with its elements. -/
def pushAll (o : Oracle) (v : Vec) : Nat → Nat → List α → M Unit
  | _, _, [] => M.done ()
  | cap, len, _ :: xs =>
    (M.act o).andThen fun _ =>
    if len < cap then (M.act o).andThen fun _ => (M.born 1).andThen fun _ => (pushAll o v cap (len + 1) xs).unwind 1
    else (M.act o).andThen fun _ => (M.act o).andThen fun _ => (M.born 1).andThen fun _ =>
      ((transfer o v len).andThen fun _ => pushAll o v (v.grow cap) (len + 1) xs).unwind 1

/-- The members before the body of a constructor runs (flex_array.hpp:40, 63, 134, 277). -/
def members (o : Oracle) (env : Env α) (m : Mode) : M (FA α) :=
  match m with
  | .static n => (build o n).andThen fun _ => M.done (dflt env m)
  | .limited n => (build o n).andThen fun _ => M.done (dflt env m)
  | .dynamic => M.done (dflt env m)

/-- `flex_array() noexcept` (flex_array.hpp:280). -/
def dfltM (o : Oracle) (env : Env α) (m : Mode) : M (FA α) := (members o env m).noexc

/-- The constructor from an initializer list (flex_array.hpp:294-310). -/
def ofInitM (o : Oracle) (v : Vec) (env : Env α) (m : Mode) (xs : List α) : M (FA α) :=
  (members o env m).andThen fun a =>
  M.unwind a.data.length
    (match m.tooMany xs.length with
      | true => M.raise .length
      | false => match m with
        | .static n =>
          if xs.length ≠ n then M.raise .length
          else (assignN o xs.length).andThen fun _ => M.done { a with data := overwrite a.data xs }
        | .limited _ =>
          (assignN o xs.length).andThen fun _ =>
          M.done { setSize env m a xs.length with data := overwrite (setSize env m a xs.length).data xs }
        | .dynamic =>
          (vecResize o v env 0 a xs.length).andThen fun b =>
          M.unwind (xs.length - a.data.length) ((assignN o xs.length).andThen fun _ => M.done { b with data := overwrite b.data xs }))

/-- The loop of the range constructor for arrays: test the bound, read the iterator, assign (flex_array.hpp:328-338). -/
def fillM (o : Oracle) (check : Bool) (max : Nat) : List (Option α) → Nat → List α → M (List (Option α) × Nat)
  | cs, ix, [] => M.done (cs, ix)
  | cs, ix, x :: xs =>
    if check ∧ max ≤ ix then M.raise .length
    else (M.act o).andThen fun _ => (M.act o).andThen fun _ => fillM o check max (cs.set ix (some x)) (ix + 1) xs

/-- The constructor from a range (flex_array.hpp:319-346). `ra`: random access iterators. -/
def ofRangeM (o : Oracle) (v : Vec) (env : Env α) (m : Mode) (ra : Bool) (xs : List α) : M (FA α) :=
  (members o env m).andThen fun a =>
  M.unwind a.data.length
    (match m with
      | .dynamic => (pushAll o v 0 a.data.length xs).andThen fun _ => M.done ⟨a.data.length + xs.length, a.data ++ xs.map some⟩
      | .static n =>
        if ra ∧ n < xs.length then M.raise .length
        else (fillM o (!ra) n a.data 0 xs).andThen fun r => M.done { a with data := r.1 }
      | .limited k =>
        if ra ∧ k < xs.length then M.raise .length
        else (fillM o (!ra) k a.data 0 xs).andThen fun r => M.done ⟨r.2, r.1⟩)

/-- The conversion from dynamic to static extent (flex_array.hpp:353-361). -/
def toStaticM (o : Oracle) (env : Env α) (n : Nat) (other : FA α) : M (FA α) :=
  (members o env (.static n)).andThen fun a =>
  M.unwind a.data.length
    (if other.size ≠ n then M.raise .length
     else (assignN o other.size).andThen fun _ => M.done { a with data := overwriteCells a.data other.live })

/-- The conversion from static to dynamic extent, `noexcept` (flex_array.hpp:366-372); `none`: rejected by the `static_assert`. -/
def ofStaticM (o : Oracle) (v : Vec) (env : Env α) (m : Mode) (other : FA α) : Option (M (FA α)) :=
  match m with
  | .static _ => none
  | .limited k =>
    if other.size ≤ k then
      some (M.noexc ((members o env m).andThen fun a =>
        M.unwind a.data.length ((assignN o other.size).andThen fun _ =>
          M.done { setSize env m a other.size with data := overwriteCells (setSize env m a other.size).data other.live })))
    else none
  | .dynamic =>
    some (M.noexc ((members o env m).andThen fun a =>
      M.unwind a.data.length ((vecResize o v env 0 a other.size).andThen fun b =>
        M.unwind (other.size - a.data.length) ((assignN o other.size).andThen fun _ =>
          M.done { b with data := overwriteCells b.data other.live }))))

/-- The copy constructor, `noexcept` (flex_array.hpp:281). -/
def copyM (o : Oracle) (m : Mode) (a : FA α) : M (FA α) :=
  M.noexc (match m with
    | .dynamic => (M.act o).andThen fun _ => (build o a.data.length).andThen fun _ => M.done a
    | _ => (build o a.data.length).andThen fun _ => M.done a)

/-- `resize` (flex_array.hpp:386-394) of an array whose vector has capacity `cap`; `none`: not available for a static extent. -/
def resizeM (o : Oracle) (v : Vec) (env : Env α) (m : Mode) (cap : Nat) (a : FA α) (k : Nat) : Option (M (FA α)) :=
  match m with
  | .static _ => none
  | .limited max => some (if max < k then M.raise .invalid else M.done (setSize env m a k))
  | .dynamic => some (vecResize o v env cap a k)

end Verif.FlexArray
