/-!
Model of the macros that users write (`include/dice/template-library/macro_util.hpp`, `dbg.hpp:25-29`, `memfn.hpp:14-17`,
`type_traits.hpp:210-219`, `defer.hpp:135-166`, `sandbox.hpp:168`) and of the part of the preprocessor they need: tokens, arguments, `#`,
`##`, `__VA_ARGS__`, `__VA_OPT__`, expansion of arguments before substitution and rescanning with names that are not expanded again.

Simplified: tokens are given (no lexing); the names that a token may not be expanded to any more are those of the macros whose
replacement it comes from (without the intersection at the closing parenthesis that some descriptions have); `##` of operands that
are not single tokens is an error; `__VA_OPT__` holds plain tokens.
-/
namespace Verif.Macro

/-- The kinds of tokens that matter: identifiers, punctuation, numbers, string and character literals (arguments of
macro_util.hpp:19-27). -/
inductive Kind where
  | ident
  | punct
  | num
  | str
  deriving DecidableEq, Repr

/-- A token: its spelling, whether white space precedes it, and the macros it comes from (arguments of macro_util.hpp:19-27). -/
structure Tok where
  kind : Kind
  text : String
  sp : Bool := false
  hide : List String := []
  deriving DecidableEq, Repr

/-- An identifier in the replacement of a macro (dbg.hpp:26). -/
def i (s : String) : Tok := ⟨.ident, s, false, []⟩
/-- Punctuation in the replacement of a macro (dbg.hpp:26). -/
def p (s : String) : Tok := ⟨.punct, s, false, []⟩

/-- An operand of `##` (macro_util.hpp:19): a parameter or a token. -/
inductive Opnd where
  | param (n : Nat)
  | tok (t : Tok)

/-- A piece of the replacement of a macro: a token, a parameter, `#parameter` (dbg.hpp:27), `a ## b` (macro_util.hpp:19),
`__VA_ARGS__` and `__VA_OPT__(…)` (memfn.hpp:16). -/
inductive Piece where
  | tok (t : Tok)
  | param (n : Nat)
  | hash (n : Nat)
  | paste (a b : Opnd)
  | va
  | vaOpt (l : List Tok)

/-- A macro: `none` parameters (defer.hpp:135) or a number of them, perhaps with `...` (memfn.hpp:14), and its replacement. -/
structure Def where
  params : Option Nat
  variadic : Bool := false
  body : List Piece

/-- The macros that are defined (those of macro_util.hpp:19-40 and of the program). -/
abbrev Env := String → Option Def

/-- The arguments of an invocation after the opening parenthesis (as of macro_util.hpp:27): split at commas that are not inside
parentheses, up to the closing parenthesis. `cur` is the argument read so far, `done` the complete ones. -/
def args : List Tok → Nat → List Tok → List (List Tok) → Option (List (List Tok) × List Tok)
  | [], _, _, _ => none
  | t :: l, depth, cur, done =>
    if t.kind = .punct ∧ t.text = "(" then args l (depth + 1) (cur ++ [t]) done
    else if t.kind = .punct ∧ t.text = ")" then
      match depth with
      | 0 => some (done ++ [cur], l)
      | d + 1 => args l d (cur ++ [t]) done
    else if t.kind = .punct ∧ t.text = "," ∧ depth = 0 then args l 0 [] (done ++ [cur])
    else args l depth (cur ++ [t]) done

/-- Put several variable arguments together again (`__VA_ARGS__`, memfn.hpp:16). -/
def joinVa : List (List Tok) → List Tok
  | [] => []
  | [a] => a
  | a :: l => a ++ p "," :: joinVa l

/-- The arguments of an invocation by parameters: the named ones and the variable ones; `none`: not as many as there are
parameters (memfn.hpp:14, dbg.hpp:25). -/
def bindArgs (n : Nat) (variadic : Bool) (l : List (List Tok)) : Option (List (List Tok) × List Tok) :=
  if variadic then
    if n ≤ l.length then some (l.take n, joinVa (l.drop n)) else none
  else if l.length = n then some (l, []) else none

/-- The spelling of a token inside a string: quotes and backslashes of literals get a backslash (`#expr`, dbg.hpp:27). -/
def escape (t : Tok) : String :=
  if t.kind = .str then String.ofList (t.text.toList.flatMap fun c => if c = '"' ∨ c = '\\' then ['\\', c] else [c]) else t.text

/-- The spelling of an argument as it was written, spaces collapsed (`#expr`, dbg.hpp:27). -/
def spell : List Tok → String
  | [] => ""
  | t :: l => escape t ++ (l.map fun u => (if u.sp then " " else "") ++ escape u).foldr (· ++ ·) ""

/-- `a ## b` (macro_util.hpp:19): an identifier or number that goes on with the second token. -/
def pasteTok (a b : Tok) : Option Tok :=
  match a.kind, b.kind with
  | .ident, .ident => some { a with text := a.text ++ b.text }
  | .ident, .num => some { a with text := a.text ++ b.text }
  | .num, .num => some { a with text := a.text ++ b.text }
  | .num, .ident => some { a with text := a.text ++ b.text }
  | _, _ => none

/-- An operand of `##` is an argument as written, without expansion (macro_util.hpp:19). -/
def opnd (raw : List (List Tok)) : Opnd → Option Tok
  | .tok t => some t
  | .param n => match raw[n]? with
    | some [t] => some t
    | _ => none

/-- The replacement with arguments put in (dbg.hpp:26-29, memfn.hpp:15-17): `raw` are the arguments as written, `full` the expanded
ones, `va` the expanded variable arguments. -/
def subst (raw full : List (List Tok)) (va : List Tok) : List Piece → Option (List Tok)
  | [] => some []
  | x :: l => match subst raw full va l with
    | none => none
    | some r => match x with
      | .tok t => some (t :: r)
      | .param n => match full[n]? with
        | some a => some (a ++ r)
        | none => none
      | .hash n => match raw[n]? with
        | some a => some (⟨.str, "\"" ++ spell a ++ "\"", false, []⟩ :: r)
        | none => none
      | .paste a b => match opnd raw a, opnd raw b with
        | some s, some t => match pasteTok s t with
          | some u => some (u :: r)
          | none => none
        | _, _ => none
      | .va => some (va ++ r)
      | .vaOpt ts => some ((if va = [] then [] else ts) ++ r)

/-- Mark tokens as coming from a macro (rescanning the replacement, macro_util.hpp:27). -/
def mark (h : List String) (l : List Tok) : List Tok := l.map fun t => { t with hide := t.hide ++ h }

/-- All results or none (expansion of the arguments of macro_util.hpp:27). -/
def sequence {β : Type} : List (Option β) → Option (List β)
  | [] => some []
  | none :: _ => none
  | some a :: l => match sequence l with
    | some r => some (a :: r)
    | none => none

/-- Macro expansion of a piece of a program (uses of macro_util.hpp:27, dbg.hpp:25, memfn.hpp:14, type_traits.hpp:210, defer.hpp:151-166), with
a bound on the number of steps; `none`: an error, or the bound was too small. -/
def expand (env : Env) : Nat → List Tok → Option (List Tok)
  | 0, _ => none
  | _ + 1, [] => some []
  | n + 1, t :: l =>
    let keep := (expand env n l).map (t :: ·)
    if t.kind = .ident ∧ t.text ∉ t.hide then
      match env t.text with
      | none => keep
      | some d => match d.params with
        | none => match subst [] [] [] d.body with
          | some r => expand env n (mark (t.text :: t.hide) r ++ l)
          | none => none
        | some k => match l with
          | [] => keep
          | u :: l' =>
            if u.kind = .punct ∧ u.text = "(" then
              match args l' 0 [] [] with
              | none => none
              | some (as, rest) => match bindArgs k d.variadic as with
                | none => none
                | some (raw, va) => match sequence (raw.map (expand env n)), expand env n va with
                  | some full, some va' => match subst raw full va' d.body with
                    | some r => expand env n (mark (t.text :: t.hide) r ++ rest)
                    | none => none
                  | _, _ => none
            else keep
    else keep

/-- The piece of program `l` expands to `out` (uses of macro_util.hpp:27). -/
def Expands (env : Env) (l out : List Tok) : Prop := ∃ n, expand env n l = some out

/-! ### The macros -/

/-- `DICE_IMPL_IDENT_CONCAT` (macro_util.hpp:19). -/
def implConcat : Def := ⟨some 2, false, [.paste (.param 0) (.param 1)]⟩

/-- `DICE_IDENT_CONCAT` (macro_util.hpp:27). -/
def identConcat : Def :=
  ⟨some 2, false, [.tok (i "DICE_IMPL_IDENT_CONCAT"), .tok (p "("), .param 0, .tok (p ","), .param 1, .tok (p ")")]⟩

/-- `DICE_FILENAME` (macro_util.hpp:30-41), which depends on the compiler having `__FILE_NAME__`. -/
def filename (has : Bool) : Def := ⟨none, false, [.tok (i (if has then "__FILE_NAME__" else "__FILE__"))]⟩

/-- `DICE_DBG` (dbg.hpp:25-29). -/
def dbg : Def := ⟨some 1, false,
  [.tok (p "["), .tok (p "]"), .tok (p "<"), .tok (i "typename"), .tok (i "_dice_dbg_T"), .tok (p ">"), .tok (p "("),
   .tok (i "_dice_dbg_T"), .tok (p "&&"), .tok (i "val"), .tok (p ")"), .tok (p "->"), .tok (i "decltype"), .tok (p "("),
   .tok (i "auto"), .tok (p ")"), .tok (p "{"),
   .tok (i "std"), .tok (p "::"), .tok (i "format_to"), .tok (p "("), .tok (i "std"), .tok (p "::"), .tok (i "ostreambuf_iterator"),
   .tok (p "<"), .tok (i "char"), .tok (p ">"), .tok (p "{"), .tok (i "std"), .tok (p "::"), .tok (i "cerr"), .tok (p "}"), .tok (p ","),
   .tok ⟨.str, "\"[{}:{}] {} = {}\\n\"", false, []⟩, .tok (p ","), .tok (i "DICE_FILENAME"), .tok (p ","), .tok (i "__LINE__"), .tok (p ","),
   .hash 0, .tok (p ","), .tok (i "val"), .tok (p ")"), .tok (p ";"),
   .tok (i "return"), .tok (i "std"), .tok (p "::"), .tok (i "forward"), .tok (p "<"), .tok (i "_dice_dbg_T"), .tok (p ">"),
   .tok (p "("), .tok (i "val"), .tok (p ")"), .tok (p ";"), .tok (p "}"), .tok (p "("), .param 0, .tok (p ")")]⟩

/-- `DICE_MEMFN` (memfn.hpp:14-17). -/
def memfn : Def := ⟨some 1, true,
  [.tok (p "("), .tok (p "["), .tok (p "&"), .tok (p ","), .tok (i "this"), .tok (p "]"), .tok (p "<"), .tok (i "typename"), .tok (p "..."),
   .tok (i "RuntimeArgs"), .tok (p ">"), .tok (p "("), .tok (i "RuntimeArgs"), .tok (p "&&"), .tok (p "..."), .tok (i "runtime_args"),
   .tok (p ")"), .tok (p "->"), .tok (i "decltype"), .tok (p "("), .tok (i "auto"), .tok (p ")"), .tok (p "{"),
   .tok (i "return"), .tok (i "this"), .tok (p "->"), .param 0, .tok (p "("), .va, .vaOpt [p ","],
   .tok (i "std"), .tok (p "::"), .tok (i "forward"), .tok (p "<"), .tok (i "RuntimeArgs"), .tok (p ">"), .tok (p "("),
   .tok (i "runtime_args"), .tok (p ")"), .tok (p "..."), .tok (p ")"), .tok (p ";"), .tok (p "}"), .tok (p ")")]⟩

/-- `DICE_MOVE_IF_VALUE` (type_traits.hpp:210-219). -/
def moveIfValue : Def := ⟨some 1, false,
  [.tok (p "["), .tok (p "&"), .tok (p "]"), .tok (p "<"), .tok (i "bool"), .tok (i "_dice_detail_no_move"), .tok (p "="), .tok (i "std"),
   .tok (p "::"), .tok (i "is_lvalue_reference_v"), .tok (p "<"), .tok (i "decltype"), .tok (p "("), .param 0, .tok (p ")"), .tok (p ">"),
   .tok (p "||"), .tok (i "std"), .tok (p "::"), .tok (i "is_const_v"), .tok (p "<"), .tok (i "std"), .tok (p "::"),
   .tok (i "remove_reference_t"), .tok (p "<"), .tok (i "decltype"), .tok (p "("), .param 0, .tok (p ")"), .tok (p ">"), .tok (p ">"),
   .tok (p ">"), .tok (p "("), .tok (p ")"), .tok (p "->"), .tok (i "std"), .tok (p "::"), .tok (i "conditional_t"), .tok (p "<"),
   .tok (i "_dice_detail_no_move"), .tok (p ","), .tok (i "decltype"), .tok (p "("), .param 0, .tok (p ")"), .tok (p ","), .tok (i "std"),
   .tok (p "::"), .tok (i "add_rvalue_reference_t"), .tok (p "<"), .tok (i "std"), .tok (p "::"), .tok (i "remove_cvref_t"), .tok (p "<"),
   .tok (i "decltype"), .tok (p "("), .param 0, .tok (p ")"), .tok (p ">"), .tok (p ">"), .tok (p ">"), .tok (p "{"),
   .tok (i "if"), .tok (i "constexpr"), .tok (p "("), .tok (i "_dice_detail_no_move"), .tok (p ")"), .tok (p "{"),
   .tok (i "return"), .param 0, .tok (p ";"), .tok (p "}"), .tok (i "else"), .tok (p "{"),
   .tok (i "return"), .tok (i "std"), .tok (p "::"), .tok (i "move"), .tok (p "("), .param 0, .tok (p ")"), .tok (p ";"), .tok (p "}"),
   .tok (p "}"), .tok (p "("), .tok (p ")")]⟩

/-- `DICE_TEMPLATE_LIBRARY_DETAIL_SCOPEGUARD_VAR` (defer.hpp:135). -/
def guardVar : Def := ⟨none, false,
  [.tok (i "DICE_IDENT_CONCAT"), .tok (p "("), .tok (i "_scope_guard"), .tok (p ","), .tok (i "__LINE__"), .tok (p ")")]⟩

/-- `DICE_DEFER`, `DICE_DEFER_TO_FAIL` and `DICE_DEFER_TO_SUCCESS` (defer.hpp:151-166): the class of the guard and what follows the
parameters of the lambda. -/
def defer (guard : String) (tail : List Tok) : Def := ⟨none, false,
  ([i "auto", i "DICE_TEMPLATE_LIBRARY_DETAIL_SCOPEGUARD_VAR", p "=", p "::", i "dice", p "::", i "template_library", p "::",
    i "defer_detail", p "::", i guard, p "{", p "}", p "+", p "[", p "&", p "]", p "(", p ")"] ++ tail).map .tok⟩

/-- `DICE_SANDBOX` (sandbox.hpp:168). -/
def sandbox : Def := ⟨none, false,
  [p "::", i "dice", p "::", i "template_library", p "::", i "detail_sandbox", p "::", i "SandBox", p "{", p "}", p "+", p "[", p "&", p "]",
    p "(", p ")"].map .tok⟩

/-- `DICE_IGNORE_LEAK` (macro_util.hpp:83). -/
def ignoreLeak : Def := ⟨some 1, false,
  [.tok (p "("), .tok (p "::"), .tok (i "dice"), .tok (p "::"), .tok (i "template_library"), .tok (p "::"), .tok (i "detail_ignore_leak"),
   .tok (p "::"), .tok (i "deprecated_macro_use"), .tok (p "("), .tok (p ")"), .tok (p ","), .tok (p "::"), .tok (i "dice"), .tok (p "::"),
   .tok (i "template_library"), .tok (p "::"), .tok (i "ignore_leak"), .tok (p "("), .param 0, .tok (p ")"), .tok (p ")")]⟩

/-- A token of a number (`__LINE__`, defer.hpp:135). -/
def numTok (n : Nat) : Tok := ⟨.num, toString n, false, []⟩

/-- The macros on a line of a program that includes the headers (macro_util.hpp:9-83, dbg.hpp:25, memfn.hpp:14, type_traits.hpp:210,
defer.hpp:135-166, sandbox.hpp:168): those of the library, `__LINE__`, `__FILE__` and `__FILE_NAME__` (given by the compiler), and those
of the program. -/
def lib (line : Nat) (file : String) (has : Bool) (user : Env) : Env := fun s =>
  if s = "DICE_IMPL_IDENT_CONCAT" then some implConcat
  else if s = "DICE_IDENT_CONCAT" then some identConcat
  else if s = "DICE_FILENAME" then some (filename has)
  else if s = "DICE_DBG" then some dbg
  else if s = "DICE_MEMFN" then some memfn
  else if s = "DICE_MOVE_IF_VALUE" then some moveIfValue
  else if s = "DICE_TEMPLATE_LIBRARY_DETAIL_SCOPEGUARD_VAR" then some guardVar
  else if s = "DICE_DEFER" then some (defer "ScopeGuardOnExit" [i "noexcept"])
  else if s = "DICE_DEFER_TO_FAIL" then some (defer "ScopeGuardOnFail" [i "noexcept"])
  else if s = "DICE_DEFER_TO_SUCCESS" then some (defer "ScopeGuardOnSuccess" [])
  else if s = "DICE_SANDBOX" then some sandbox
  else if s = "DICE_IGNORE_LEAK" then some ignoreLeak
  else if s = "__LINE__" then some ⟨none, false, [.tok (numTok line)]⟩
  else if s = "__FILE__" ∨ (has = true ∧ s = "__FILE_NAME__") then some ⟨none, false, [.tok ⟨.str, "\"" ++ file ++ "\"", false, []⟩]⟩
  else user s

/-! ### `ignore_leak` -/

/-- A call of `__lsan_ignore_object` (macro_util.hpp:65); `none`: the symbol is null, because the sanitizer is not linked
(macro_util.hpp:53-55). -/
def callIgnore (linked : Bool) (ptr : Nat) : Option (List Nat) := if linked then some [ptr] else none

/-- `ignore_leak` (macro_util.hpp:62-71): the objects it tells the sanitizer to ignore; `weak`: the compiler has weak symbols. -/
def ignoreLeakFn (weak linked : Bool) (ptr : Nat) : Option (List Nat) :=
  if weak then
    if linked then callIgnore linked ptr else some []
  else some []

end Verif.Macro
