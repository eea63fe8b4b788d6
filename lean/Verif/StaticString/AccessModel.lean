import Verif.StaticString.Model

/-!
Model of the element access, comparison and output of `basic_static_string` (static_string.hpp:131-212, 222-249) on the states of
`Model.lean`. A character is the list of its bytes.
-/
namespace Verif.StaticString

/-- The character at a position of the buffer (static_string.hpp:145-192: `std::to_address(data_)[ix]`, a dereferenced iterator). -/
def charPtr (w : Nat) (heap : Nat → Option Buf) (s : Str) (i : Nat) : Except Err (List Cell) :=
  match s.data with
  | none => .error .badRead
  | some p => match heap p with
    | none => .error .badRead
    | some b => if (i + 1) * w ≤ b.bytes.length then .ok ((b.bytes.drop (i * w)).take w) else .error .badRead

/-- `s[ix]` (static_string.hpp:145-153). -/
def charAt (w : Nat) (heap : Nat → Option Buf) (s : Str) (i : Nat) : Except Err (List Cell) :=
  if i < s.size then charPtr w heap s i else .error .assertion

/-- `front()` (static_string.hpp:155-163). -/
def front (w : Nat) (heap : Nat → Option Buf) (s : Str) : Except Err (List Cell) :=
  if 0 < s.size then charAt w heap s 0 else .error .assertion

/-- `back()` (static_string.hpp:165-173). -/
def back (w : Nat) (heap : Nat → Option Buf) (s : Str) : Except Err (List Cell) :=
  if 0 < s.size then charAt w heap s (s.size - 1) else .error .assertion

/-- `empty()` (static_string.hpp:137-139). -/
def isEmpty (s : Str) : Bool := decide (s.size = 0)

/-- From an iterator `n` steps forward (static_string.hpp:175-192). -/
def walk (w : Nat) (heap : Nat → Option Buf) (s : Str) (p : Nat) : Nat → Except Err (List (List Cell))
  | 0 => .ok []
  | n + 1 => (charPtr w heap s p).bind fun c => (walk w heap s (p + 1) n).bind fun cs => .ok (c :: cs)

/-- From `begin()` to `end()` (static_string.hpp:175-192); no character is read if there are none. -/
def traverse (w : Nat) (heap : Nat → Option Buf) (s : Str) : Except Err (List (List Cell)) := walk w heap s 0 s.size

/-- From a reverse iterator with base `n` to `rend()`: it denotes the character before its base (static_string.hpp:194-212). -/
def rwalk (w : Nat) (heap : Nat → Option Buf) (s : Str) : Nat → Except Err (List (List Cell))
  | 0 => .ok []
  | n + 1 => (charPtr w heap s n).bind fun c => (rwalk w heap s n).bind fun cs => .ok (c :: cs)

/-- From `rbegin()` to `rend()` (static_string.hpp:194-212). -/
def rtraverse (w : Nat) (heap : Nat → Option Buf) (s : Str) : Except Err (List (List Cell)) := rwalk w heap s s.size

/-! ### Comparison of one-byte characters -/

/-- `Traits::compare` of the first `n` characters: the sign of the difference of the first two that differ, as unsigned bytes; reading an
uninitialised byte is an error (behind static_string.hpp:222-236). -/
def compareN : Nat → List Cell → List Cell → Except Err Ordering
  | 0, _, _ => .ok .eq
  | n + 1, some x :: xs, some y :: ys => if x = y then compareN n xs ys else .ok (if x < y then .lt else .gt)
  | _ + 1, _, _ => .error .badRead

/-- `basic_string_view::compare`: the common length first, then the sizes (behind static_string.hpp:222-236). -/
def viewCompare (x y : List Cell) : Except Err Ordering :=
  (compareN (min x.length y.length) x y).bind fun o => match o with
    | .eq => .ok (if x.length < y.length then .lt else if y.length < x.length then .gt else .eq)
    | o => .ok o

/-- `view == view`: sizes first (behind static_string.hpp:222-224, 230-232). -/
def viewEq (x y : List Cell) : Except Err Bool :=
  if x.length ≠ y.length then .ok false else (viewCompare x y).bind fun o => .ok (decide (o = .eq))

/-- Convert to a view, then go on with its characters (static_string.hpp:124-126). -/
def withView {β : Type} (heap : Nat → Option Buf) (s : Str) (f : List Cell → Except Err β) : Except Err β :=
  match read 1 heap s with
  | none => .error .badRead
  | some x => f x

/-- `s <=> o` (static_string.hpp:226-228). -/
def strCmp (heap : Nat → Option Buf) (s o : Str) : Except Err Ordering := withView heap s fun x => withView heap o fun y => viewCompare x y

/-- `s == o` (static_string.hpp:222-224). -/
def strEq (heap : Nat → Option Buf) (s o : Str) : Except Err Bool := withView heap s fun x => withView heap o fun y => viewEq x y

/-- `s <=> view` (static_string.hpp:234-236). -/
def strCmpView (heap : Nat → Option Buf) (s : Str) (y : List Nat) : Except Err Ordering := withView heap s fun x => viewCompare x (y.map some)

/-- `s == view` (static_string.hpp:230-232). -/
def strEqView (heap : Nat → Option Buf) (s : Str) (y : List Nat) : Except Err Bool := withView heap s fun x => viewEq x (y.map some)

/-! ### Output -/

/-- The parts of a stream that matter for output of text (static_string.hpp:240). -/
structure Stream where
  text : List Cell
  width : Nat
  fill : Nat
  left : Bool

/-- `os << view`: padded to the width with the fill character, on the right if left-adjusted; the width is reset (behind
static_string.hpp:240). -/
def insertView (os : Stream) (x : List Cell) : Stream :=
  let pad := List.replicate (os.width - x.length) (some os.fill)
  { os with text := os.text ++ (if os.left then x ++ pad else pad ++ x), width := 0 }

/-- `os << s` (static_string.hpp:238-242). -/
def insert (heap : Nat → Option Buf) (os : Stream) (s : Str) : Except Err Stream := withView heap s fun x => .ok (insertView os x)

end Verif.StaticString
