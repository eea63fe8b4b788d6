/-!
Model of fmt_join.hpp: the joiner object and its formatter.

Characters are `Char`. The formatter of the elements is arbitrary: a partial function from format specification and element to text (`none`: it
throws). The output is a buffer; an output iterator is a position in it. For the iterators of `std::format_context` the position is
irrelevant (all copies append to the same sink); for others (`shared = false`) writing happens at the iterator's own position.
-/
namespace Verif.FmtJoin

/-! ## Output -/

/-- Buffer written so far (behind fmt_join.hpp:55-83). -/
abbrev Buf := List Char

/-- `*it++ = c` for an iterator at position `pos`; gives the buffer and the position of the advanced iterator (fmt_join.hpp:74). -/
def put (shared : Bool) (b : Buf) (pos : Nat) (c : Char) : Buf × Nat :=
  match shared with
  | true => (b ++ [c], pos + 1)
  | false => (b.take pos ++ c :: b.drop (pos + 1), pos + 1)

/-- `std::ranges::copy(s, it)` (fmt_join.hpp:71) -/
def putAll (shared : Bool) (b : Buf) (pos : Nat) : List Char → Buf × Nat
  | [] => (b, pos)
  | c :: cs => let r := put shared b pos c; putAll shared r.1 r.2 cs

/-- `std::basic_format_context`: the buffer and the iterator kept by it (`out()`, `advance_to`) (fmt_join.hpp:55). -/
structure Ctx where
  shared : Bool
  buf : Buf
  pos : Nat
deriving DecidableEq, Repr

/-! ## Separators -/

/-- What `joiner` stores as separator (fmt_join.hpp:12-16, 32, 37). Class template argument deduction makes a `char const *` of string
literals, which is not a range: it takes the same branch as single characters. -/
inductive Sep
  /-- a range of characters: `std::string`, `std::string_view`, ... -/
  | range (s : List Char)
  /-- a single character -/
  | char (c : Char)
  /-- a pointer to characters, of which those before the first NUL are seen when it is assigned to libstdc++'s output iterator (it has an
  assignment operator for `std::string_view`). With other output iterators this does not compile. -/
  | literal (s : List Char)
deriving DecidableEq, Repr

/-- The string seen through a pointer to characters (for the separator of fmt_join.hpp:31). -/
def cstr (s : List Char) : List Char := s.takeWhile (· ≠ '\x00')

/-- Separator, first branch of `if constexpr` (fmt_join.hpp:69-75): the context is advanced. Second branch (72-73):
`*format_ctx.out()++ = separator`, the context is not advanced. -/
def writeSep (sep : Sep) (x : Ctx) : Ctx := match sep with
  | .range s => let r := putAll x.shared x.buf x.pos s; { x with buf := r.1, pos := r.2 }
  | .char c => { x with buf := (put x.shared x.buf x.pos c).1 }
  | .literal s => { x with buf := (putAll x.shared x.buf x.pos (cstr s)).1 }

/-! ## Elements -/

/-- `std::formatter<T>`: `parse` reads a format specification and gives the formatter's state and the rest of the format string; `format` gives
the text of an element. `none`: `std::format_error` or another exception (`element_formatter_`, fmt_join.hpp:47). -/
structure Formatter (σ α : Type) where
  parse : List Char → Option (σ × List Char)
  text : σ → α → Option (List Char)

variable {σ α : Type}

/-- What formatting gives: the context, and whether an exception left the function (of fmt_join.hpp:55-83). -/
structure Res where
  ctx : Ctx
  threw : Bool
deriving DecidableEq, Repr

/-- `format_ctx.advance_to(element_formatter_.format(*it, format_ctx))` (fmt_join.hpp:64, 78). -/
def writeElem (f : Formatter σ α) (st : σ) (a : α) (x : Ctx) : Res := match f.text st a with
  | none => ⟨x, true⟩
  | some s => let r := putAll x.shared x.buf x.pos s; ⟨{ x with buf := r.1, pos := r.2 }, false⟩

/-- The loop (fmt_join.hpp:68-80). -/
def formatRest (f : Formatter σ α) (st : σ) (sep : Sep) : List α → Ctx → Res
  | [], x => ⟨x, false⟩
  | a :: as, x =>
    let r := writeElem f st a (writeSep sep x)
    match r.threw with
    | true => r
    | false => formatRest f st sep as r.ctx

/-- `formatter<joiner>::format` (fmt_join.hpp:55-83). -/
def format (f : Formatter σ α) (st : σ) (sep : Sep) (range : List α) (x : Ctx) : Res := match range with
  | [] => ⟨x, false⟩
  | a :: as =>
    let r := writeElem f st a x
    match r.threw with
    | true => r
    | false => formatRest f st sep as r.ctx

/-- `formatter<joiner>::parse` (fmt_join.hpp:50-53). -/
def parse (f : Formatter σ α) (s : List Char) : Option (σ × List Char) := f.parse s

/-! ## The joiner object -/

/-- `views::all`: a reference to an lvalue, or the range itself (fmt_join.hpp:32). -/
inductive View (α : Type)
  | ref (loc : Nat)
  | owning (l : List α)

/-- Containers named by the caller and what they hold (behind the parameter in fmt_join.hpp:31). -/
abbrev Store (α : Type) := Nat → List α

/-- An argument for the parameter `range` (fmt_join.hpp:31, 36). -/
inductive Arg (α : Type)
  | lvalue (loc : Nat)
  | rvalue (l : List α)
  /-- `{a, b, c}`: the second overload (fmt_join.hpp:35-38), which copies into a vector -/
  | initList (l : List α)

/-- `joiner` (fmt_join.hpp:12-16). -/
structure Joiner (α : Type) where
  range : View α
  separator : Sep

/-- `fmt_join(range, separator)` (fmt_join.hpp:30-38). -/
def fmtJoin (r : Arg α) (sep : Sep) : Joiner α := match r with
  | .lvalue loc => ⟨.ref loc, sep⟩
  | .rvalue l => ⟨.owning l, sep⟩
  | .initList l => ⟨.owning l, sep⟩

/-- The elements of a view when it is iterated over (fmt_join.hpp:56-57). -/
def View.elems (s : Store α) : View α → List α
  | .ref loc => s loc
  | .owning l => l

/-- `std::format("{:spec}", j)`: parse the specification, then format into an empty string. `none`: it threw. The standard library checks that
`parse` stopped at the closing brace (calls fmt_join.hpp:50-53 and 55-83). -/
def stdFormat (f : Formatter σ α) (spec : List Char) (s : Store α) (j : Joiner α) : Option (List Char) :=
  match parse f spec with
  | some (st, []) =>
    let r := format f st j.separator (j.range.elems s) ⟨true, [], 0⟩
    match r.threw with
    | true => none
    | false => some r.ctx.buf
  | _ => none

end Verif.FmtJoin
