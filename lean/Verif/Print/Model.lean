/-!
Model of format_to_ostream.hpp (`stream << value` by means of `std::formatter`) and dbg.hpp (`DICE_DBG`).

Both write through `std::ostreambuf_iterator`, i.e. directly to the stream buffer.
-/
namespace Verif.Print

/-- An output stream: what reached its buffer, how many more characters the buffer accepts (`none`: any number), its error state
(`good()`), the field width, and whether the stream it is tied to has output that was not flushed (`stream` in format_to_ostream.hpp:49,
`std::cerr` in dbg.hpp:27). -/
structure Stream where
  text : List Char
  room : Option Nat
  good : Bool
  width : Nat
  tiePending : Bool
deriving DecidableEq, Repr

/-- `streambuf::sputc`: the buffer takes the character, or reports that it cannot (`false`) (by the iterators in format_to_ostream.hpp:50,
dbg.hpp:27). -/
def sputc (s : Stream) (c : Char) : Stream × Bool := match s.room with
  | none => ({ s with text := s.text ++ [c] }, true)
  | some 0 => (s, false)
  | some (n + 1) => ({ s with text := s.text ++ [c], room := some n }, true)

/-- Writing characters through a `std::ostreambuf_iterator` made for the stream; once a character was refused the iterator is `failed()` and
ignores the rest (format_to_ostream.hpp:50, dbg.hpp:27). -/
def putAll (s : Stream) (failed : Bool) : List Char → Stream
  | [] => s
  | c :: cs => match failed with
    | true => s
    | false => match sputc s c with
      | (s', ok) => putAll s' (!ok) cs

/-- What `std::format` makes of a value: text, or an exception of the formatter after some text (format_to_ostream.hpp:50, dbg.hpp:27). -/
inductive Formatted (ε : Type)
  | text (cs : List Char)
  | throws (before : List Char) (e : ε)
deriving DecidableEq, Repr

variable {ε : Type}

/-- `std::format_to(std::ostreambuf_iterator{stream}, "{}", value)`. Text is collected in chunks before it is written, so if the formatter throws
only the first `kept` characters of what it produced are written (format_to_ostream.hpp:50, dbg.hpp:27). -/
def formatTo (s : Stream) (kept : Nat) : Formatted ε → Stream × Except ε Unit
  | .text cs => (putAll s false cs, .ok ())
  | .throws cs e => (putAll s false (cs.take kept), .error e)

/-- Does the library's `operator<<` take part in overload resolution? (format_to_ostream.hpp:48) -/
def applicable (formattable ostreamable : Bool) : Bool := formattable && !ostreamable

/-- `stream << value` (format_to_ostream.hpp:48-52). The result is the stream itself. -/
def shift (s : Stream) (kept : Nat) (f : Formatted ε) : Stream × Except ε Unit := formatTo s kept f

/-- `stream << v1 << v2 << …` (format_to_ostream.hpp:48-52) -/
def shifts (s : Stream) : List (Nat × Formatted ε) → Stream × Except ε Unit
  | [] => (s, .ok ())
  | (kept, f) :: fs => match shift s kept f with
    | (s', .ok ()) => shifts s' fs
    | (s', .error e) => (s', .error e)

/-- For comparison, what the standard demands of `stream << string` ([ostream.formatted.reqmts], [string.io]): nothing is written unless the
stream is good, the tied stream is flushed, text shorter than the field width is padded (on the left), a refusal of the buffer is
recorded in the error state, and the field width is reset (what format_to_ostream.hpp:39-52 is measured against). -/
def insertString (s : Stream) (cs : List Char) : Stream := match s.good with
  | false => s
  | true =>
    let out := List.replicate (s.width - cs.length) ' ' ++ cs
    let s' := putAll { s with tiePending := false } false out
    { s' with width := 0, good := match s.room with | none => true | some n => out.length ≤ n }

/-! ## DICE_DBG -/

/-- Value categories (of the argument in dbg.hpp:29). -/
inductive Cat | lvalue | xvalue | prvalue
deriving DecidableEq, Repr

/-- Objects by address; `none`: no object lives there (program around dbg.hpp:25-29). -/
abbrev Store (V : Type) := Nat → Option V

/-- What evaluating an expression gives: a reference to an object, or a value that is no object yet (the argument in dbg.hpp:29). -/
inductive Result (V : Type)
  | ref (cat : Cat) (addr : Nat)
  | pure (v : V)
deriving DecidableEq, Repr

/-- The state of the program as far as it matters: objects, standard error, and (ghost) the expressions evaluated so far (program around
dbg.hpp:25-29). -/
structure World (V : Type) where
  store : Store V
  err : Stream
  evals : List Nat

/-- An expression, the argument of the macro (dbg.hpp:25): its number (for the ghost history) and its evaluation. -/
structure Expr (V ε : Type) where
  id : Nat
  eval : Store V → Store V × Except ε (Result V)

/-- Evaluating an expression in the program, as the argument of the call of the lambda (dbg.hpp:29). -/
def Expr.run {V : Type} (e : Expr V ε) (w : World V) : World V × Except ε (Result V) :=
  let (st, r) := e.eval w.store
  (⟨st, w.err, w.evals ++ [e.id]⟩, r)

/-- `DICE_DBG(expr)` (dbg.hpp:25-29). `tmp` is the address for the temporary if the expression is a prvalue (the parameter of the lambda is a
reference, so there has to be an object), `fmt` formats a value, `pre` is `[file:line] text = ` (`linePrefix`). The lambda returns
`std::forward<T>(val)`, a reference to the object. `none`: undefined behaviour, the expression refers to an object that does not live. -/
def dbg {V : Type} (pre : List Char) (fmt : V → Formatted ε) (kept tmp : Nat) (e : Expr V ε) (w : World V) :
    Option (World V × Except ε (Result V)) :=
  match e.run w with
  | (w, .error x) => some (w, .error x)
  | (w, .ok r) =>
    let (st, cat, addr) : Store V × Cat × Nat := match r with
      | .ref .lvalue a => (w.store, .lvalue, a)
      | .ref _ a => (w.store, .xvalue, a)
      | .pure v => ((fun x => if x = tmp then some v else w.store x), .xvalue, tmp)
    (st addr).map fun v =>
      match (match fmt v with
        | .text cs => formatTo w.err kept (.text (pre ++ cs ++ ['\n']) : Formatted ε)
        | .throws cs x => formatTo w.err kept (.throws (pre ++ cs) x)) with
      | (err, .ok ()) => (⟨st, err, w.evals⟩, .ok (.ref cat addr))
      | (err, .error x) => (⟨st, err, w.evals⟩, .error x)

/-- `[file:line] text = ` (dbg.hpp:27; DICE_FILENAME, macro_util.hpp:30-41). -/
def linePrefix (file : List Char) (line : Nat) (text : List Char) : List Char :=
  '[' :: file ++ ':' :: (toString line).toList ++ "] ".toList ++ text ++ " = ".toList

/-- The end of the full expression: the temporary goes away (after dbg.hpp:29). -/
def endTemp {V : Type} (st : Store V) (tmp : Nat) : Store V := fun x => if x = tmp then none else st x

/-- `auto &&x = expr;`: the object `x` refers to after the declaration. A prvalue gets an object at `new` that lives as long as `x`
([class.temporary]); a reference is taken as it is (after dbg.hpp:29). -/
def bindRef {V : Type} (new : Nat) (st : Store V) : Result V → Store V × Nat
  | .ref _ a => (st, a)
  | .pure v => ((fun x => if x = new then some v else st x), new)

end Verif.Print
