/-!
Model of format_to_ostream.hpp:17-52 as a set of declarations (C104): which `operator<<` an expression `stream << value`
means. The library declares one function template in the global namespace, for values that can be formatted and that
could not be streamed otherwise; the latter is asked by `is_ostreamable` in the namespace `dice::template_library`.

Name lookup of an operator ([over.match.oper], [basic.lookup]): member functions of the stream and functions in `std`
(associated with the stream) are always candidates; so are the functions of the innermost namespace around the expression
that declares any `operator<<`, and those of the namespaces associated with the type of the value.

Simplifications: all declarations of a program are visible where templates are instantiated; which of several viable
functions is chosen (partial ordering of templates) is not modelled, only which are viable. When the global namespace is
associated with the type, `is_ostreamable` finds the library's function whose constraint is just being evaluated: it is not
usable then and the candidate is dropped, which is what the note at format_to_ostream.hpp:4-9 is about.
-/
namespace Verif.Print.Lookup

/-- A namespace, innermost name first; `[]` is the global one (the scopes of format_to_ostream.hpp:17-52). -/
abbrev Ns := List String

/-- `dice::template_library` (format_to_ostream.hpp:17). -/
def library : Ns := ["template_library", "dice"]

/-- Character type of a stream (`Char` in format_to_ostream.hpp:25-52). -/
inductive Ch
  | narrow
  | wide
deriving DecidableEq, Repr

variable {τ : Type}

/-- An overload of `operator<<` declared by someone else: where, for which values it is viable, and whether it is
declared before the header is included (what format_to_ostream.hpp:30 can find). -/
structure Decl (τ : Type) where
  ns : Ns
  accepts : Ch → τ → Bool
  early : Bool

/-- A program that uses the header (format_to_ostream.hpp:17-52): the overloads it declares, the namespaces associated with
each type, the types which members of the stream or functions in `std` take, and the types with a `std::formatter`. -/
structure Prog (τ : Type) where
  decls : List (Decl τ)
  assoc : τ → List Ns
  builtin : Ch → τ → Bool
  formattable : Ch → τ → Bool

/-- A function that `stream << value` may mean: a member of the stream or function in `std`, one the program declares, or
the library's (format_to_ostream.hpp:48-49). -/
inductive Cand (τ : Type)
  | builtin
  | user (d : Decl τ)
  | lib

/-- The namespaces around a place, innermost first (language rule for format_to_ostream.hpp:30 and expressions that mean
48-49). -/
def outward : Ns → List Ns
  | [] => [[]]
  | a :: l => (a :: l) :: outward l

/-- Unqualified lookup from a namespace: the declarations of the innermost namespace that has any (language rule for
format_to_ostream.hpp:30 and for expressions that mean 48-49). -/
def unqualified {β : Type} (ds : List (Ns × β)) (use : Ns) : List β :=
  match (outward use).find? (fun n => ds.any (fun d => decide (d.1 = n))) with
  | some n => (ds.filter (fun d => decide (d.1 = n))).map (·.2)
  | none => []

/-- Argument-dependent lookup: the declarations of the associated namespaces (language rule for format_to_ostream.hpp:30 and
for expressions that mean 48-49). -/
def adl {β : Type} (ds : List (Ns × β)) (assoc : List Ns) : List β :=
  (ds.filter (fun d => decide (d.1 ∈ assoc))).map (·.2)

/-- The program's own declarations with their namespaces (candidates besides format_to_ostream.hpp:48-49). -/
def Prog.own (p : Prog τ) : List (Ns × Decl τ) := p.decls.map fun d => (d.ns, d)

/-- `is_ostreamable_v<T, Char, CharTraits>` (format_to_ostream.hpp:25-35). -/
def Prog.ostreamable (p : Prog τ) (c : Ch) (t : τ) : Bool :=
  p.builtin c t ||
    ((unqualified (p.own.filter (fun d => d.2.early)) library ++ adl p.own (p.assoc t)).any fun d => d.accepts c t)

/-- The constraint of the library's `operator<<` (format_to_ostream.hpp:48). -/
def Prog.libViable (p : Prog τ) (c : Ch) (t : τ) : Bool := p.formattable c t && !p.ostreamable c t

/-- Is the candidate viable? (overload resolution for format_to_ostream.hpp:48-49) -/
def Cand.viable (p : Prog τ) (c : Ch) (t : τ) : Cand τ → Bool
  | .builtin => p.builtin c t
  | .user d => d.accepts c t
  | .lib => p.libViable c t

/-- All declarations, the library's included: it is in the global namespace (format_to_ostream.hpp:37, 48-49). -/
def Prog.all (p : Prog τ) : List (Ns × Cand τ) := ([], .lib) :: p.decls.map fun d => (d.ns, .user d)

/-- The viable functions for `stream << value` written in the namespace `use` (overload resolution for
format_to_ostream.hpp:48-49). -/
def Prog.viable (p : Prog τ) (use : Ns) (c : Ch) (t : τ) : List (Cand τ) :=
  (.builtin :: (unqualified p.all use ++ adl p.all (p.assoc t))).filter (·.viable p c t)

/-- What the body of the library's function does: its format string is one of `char`, whatever the stream. Without a
formatter for `char` this is an error; otherwise the text is produced as `char`s and each is written to the stream's buffer
as one character (format_to_ostream.hpp:50). `none`: ill-formed. A `char` is given by its byte, the characters of the stream
by their values. -/
def Prog.body (p : Prog τ) (c : Ch) (t : τ) (bytes : List Nat) : Option (List Int) :=
  if p.formattable .narrow t then
    some (bytes.map fun (b : Nat) => match c with
      -- a byte of text
      | .narrow => (b : Int)
      -- `char` converted to `wchar_t`: `char` is signed
      | .wide => if b < 128 then (b : Int) else (b : Int) - 256)
  else none

end Verif.Print.Lookup
