import Verif.RangesAlgo.Props

/-!
What keeps what alive: the views `unique` and `remove_element` (`include/dice/template-library/ranges.hpp:120-147, 203-313`)
and the helper object of `fmt_join` (`include/dice/template-library/fmt_join.hpp:12-38`) over containers that programs change,
move and destroy. All adapt `std::views::all(range)` (ranges.hpp:125-126,306; fmt_join.hpp:32,37): a
`std::ranges::ref_view` (a pointer to the container) for a container that is an lvalue, a `std::ranges::owning_view` (the
container itself, moved) for an rvalue. Containers have value semantics and either keep their elements in a block of memory
that moves along when the container is moved (`std::vector`) or inside the object (`std::array`). Views, containers and blocks
are identified by numbers that are never used again.

Simplified: equality of elements is decidable equality (other comparisons and hashes: `Verif/RangesAlgo`); nothing throws
(`Verif/RangesThrow`); assigning to a container of kind `heap` invalidates every iterator into it, assigning to one of kind
`inline` none; the separator of `fmt_join` is left out; a test of `remove_element` that was moved away is unspecified even if
its value is a plain number.
-/
namespace Verif.Dangling

/-- Where a container keeps its elements (what ranges.hpp:306 may be called with). -/
inductive Kind where
  | heap
  | inline
  deriving DecidableEq, Repr

/-- The elements in a block of memory: values, values that were moved away, nothing any more. The number tells how often
iterators into the block were invalidated (elements behind the iterator in ranges.hpp:260). -/
inductive Data (α : Type) where
  | elems (xs : List α) (ver : Nat)
  | husk
  | freed
  deriving DecidableEq, Repr

/-- Which adaptor a view comes from: `fmt_join` (fmt_join.hpp:12-16, all elements), `unique` (ranges.hpp:218-313) or
`remove_element` with the test that an element is to stay (ranges.hpp:124-129). -/
inductive How (α : Type) where
  | all
  | uniq
  | filt (keep : α → Bool)

/-- The result of `std::views::all` (ranges.hpp:125-126,306; fmt_join.hpp:32,37): a pointer to a container, or elements in a block of its own. -/
inductive Src where
  | ref (c : Nat)
  | own (b : Nat) (k : Kind)
  deriving DecidableEq, Repr

/-- A view: the adaptor, the adapted view (ranges.hpp:223, fmt_join.hpp:14), the first position that a `std::ranges::filter_view` has cached
(block, version, index) and whether its test was moved away (ranges.hpp:126-128). -/
structure View (α : Type) where
  how : How α
  src : Src
  cache : Option (Nat × Nat × Nat) := none
  hollow : Bool := false

/-- An object that was never made, exists or was destroyed (lifetimes of the arguments and results of ranges.hpp:306-308). -/
inductive Obj (β : Type) where
  | never
  | live (b : β)
  | dead

/-- The objects of a program: blocks, containers (block and kind) and views (ranges.hpp:214-313). -/
structure St (α : Type) where
  mem : Nat → Data α
  fresh : Nat
  cont : Nat → Obj (Nat × Kind)
  view : Nat → Obj (View α)

/-- Nothing exists yet (before any use of ranges.hpp:306). -/
def start {α : Type} : St α := ⟨fun _ => .freed, 0, fun _ => .never, fun _ => .never⟩

/-- What a part of a program comes to: a result, values that are not specified, undefined behaviour, or no program at all
(outcomes of uses of ranges.hpp:214-313). -/
inductive Out (β : Type) where
  | ok (b : β)
  | unspec
  | ub
  | bad
  deriving DecidableEq, Repr

/-- Sequencing of outcomes (of uses of ranges.hpp:214-313). -/
def Out.bind {β γ : Type} : Out β → (β → Out γ) → Out γ
  | .ok b, f => f b
  | .unspec, _ => .unspec
  | .ub, _ => .ub
  | .bad, _ => .bad

variable {α : Type} [DecidableEq α]

/-- Replace the value of a function at one number (states of several objects, ranges.hpp:214-313). -/
def upd {β : Type} (f : Nat → β) (k : Nat) (b : β) : Nat → β := fun j => if j = k then b else f j

/-- `find_next_unique` (ranges.hpp:263-270) on the elements from a position on: the position found and `seen_`. -/
def seekU : List α → Nat → List α → Nat × List α
  | [], n, seen => (n, seen)
  | x :: l, n, seen => if x ∈ seen then seekU l (n + 1) seen else (n, seen ++ [x])

/-- `std::ranges::find_if` of a `filter_view` (behind ranges.hpp:126). -/
def seekF (keep : α → Bool) : List α → Nat → Nat
  | [], n => n
  | x :: l, n => if keep x then n else seekF keep l (n + 1)

/-- An iterator of a view (ranges.hpp:238-301; for `remove_element` the iterator of `std::ranges::filter_view`): what it
iterates over (block and version), where it is, `seen_` for `unique`, the view it points to for `remove_element`. -/
structure It (α : Type) where
  how : How α
  block : Nat
  ver : Nat
  pos : Nat
  seen : List α
  parent : Nat

/-- The elements an adapted view refers to now (`std::ranges::begin(parent.base_)`, ranges.hpp:275): the block of the container
that a `ref_view` points to, the block of an `owning_view`. -/
def block (s : St α) : Src → Out Nat
  | .ref c => match s.cont c with
    | .live (b, _) => .ok b
    | _ => .ub
  | .own b _ => .ok b

/-- Read a block (dereferencing the iterators in ranges.hpp:265,281). -/
def read (s : St α) (b : Nat) : Out (List α × Nat) :=
  match s.mem b with
  | .elems xs ver => .ok (xs, ver)
  | .husk => .unspec
  | .freed => .ub

/-- `begin()` (fmt_join.hpp:56; ranges.hpp:229-231,273-278; `std::ranges::filter_view::begin`, which keeps the first position it has found). -/
def begin (s : St α) (v : Nat) : Out (St α × It α) :=
  match s.view v with
  | .live w =>
    (block s w.src).bind fun b =>
    match w.how with
    | .all => (read s b).bind fun (_, ver) => .ok (s, ⟨.all, b, ver, 0, [], v⟩)
    | .uniq => (read s b).bind fun (xs, ver) =>
      let (n, seen) := seekU xs 0 []
      .ok (s, ⟨.uniq, b, ver, n, seen, v⟩)
    | .filt keep =>
      if w.hollow then .unspec else
      (read s b).bind fun (xs, ver) =>
      match w.cache with
      | some (b', ver', n) =>
        if b' = b ∧ ver' = ver then .ok (s, ⟨.filt keep, b, ver, n, [], v⟩) else .ub
      | none =>
        let n := seekF keep xs 0
        .ok ({ s with view := upd s.view v (.live { w with cache := some (b, ver, n) }) }, ⟨.filt keep, b, ver, n, [], v⟩)
  | _ => .bad

/-- Read through an iterator: what it iterates over must still be there (ranges.hpp:281). -/
def base (s : St α) (i : It α) : Out (List α) :=
  (read s i.block).bind fun (xs, ver) => if ver = i.ver then .ok xs else .ub

/-- `operator*` (fmt_join.hpp:64,77; ranges.hpp:280-282). -/
def deref (s : St α) (i : It α) : Out α :=
  (base s i).bind fun xs => match xs[i.pos]? with
    | some x => .ok x
    | none => .ub

/-- Comparison with the end (fmt_join.hpp:59,68; ranges.hpp:294-296). -/
def isEnd (s : St α) (i : It α) : Out Bool := (base s i).bind fun xs => .ok (decide (xs.length ≤ i.pos))

/-- `operator++` (fmt_join.hpp:65,78; ranges.hpp:284-288). The iterator of `unique` has its own end and set; the iterator of a `filter_view` asks
its view for the test and the end. -/
def incr (s : St α) (i : It α) : Out (It α) :=
  (base s i).bind fun xs =>
  if xs.length ≤ i.pos then .ub else
  match i.how with
  | .all => .ok { i with pos := i.pos + 1 }
  | .uniq =>
    let (n, seen) := seekU (xs.drop (i.pos + 1)) (i.pos + 1) i.seen
    .ok { i with pos := n, seen := seen }
  | .filt keep => match s.view i.parent with
    | .live w => (block s w.src).bind fun b =>
      if b ≠ i.block then .ub
      else if w.hollow then .unspec
      else .ok { i with pos := seekF keep (xs.drop (i.pos + 1)) (i.pos + 1) }
    | _ => .ub

/-- The rest of a loop over a view (fmt_join.hpp:68-79, ranges.hpp:280-296). -/
def loopFrom (s : St α) : Nat → It α → Out (List α)
  | 0, _ => .bad
  | n + 1, i => (isEnd s i).bind fun e =>
    if e then .ok [] else
    (deref s i).bind fun x => (incr s i).bind fun j => (loopFrom s n j).bind fun l => .ok (x :: l)

/-- `for (auto const &x : view)` (ranges.hpp:229-235) or formatting (fmt_join.hpp:55-82): the state afterwards and the elements seen. -/
def loop (s : St α) (v : Nat) : Out (St α × List α) :=
  (begin s v).bind fun (s', i) => (base s' i).bind fun xs =>
    (loopFrom s' (xs.length + 1) i).bind fun l => .ok (s', l)

/-- What a loop over a view sees (ranges.hpp:229-235, fmt_join.hpp:55-82). -/
def sees (s : St α) (v : Nat) : Out (List α) := (loop s v).bind fun p => .ok p.2

/-- What a program does with containers and views (around ranges.hpp:303-313 and fmt_join.hpp:30-38). -/
inductive Cmd (α : Type) where
  /-- make a container -/
  | mk (c : Nat) (k : Kind) (xs : List α)
  /-- replace its elements -/
  | assign (c : Nat) (xs : List α)
  /-- destroy it -/
  | drop (c : Nat)
  /-- move-construct container `d` from `c` -/
  | moveTo (d c : Nat)
  /-- `v = c | adaptor` -/
  | refView (v : Nat) (how : How α) (c : Nat)
  /-- `v = std::move(c) | adaptor` -/
  | ownView (v : Nat) (how : How α) (c : Nat)
  /-- `v = C{…} | adaptor` with a temporary container; `fmt_join({…}, …)` with kind `heap` (fmt_join.hpp:36-37) -/
  | temp (v : Nat) (how : How α) (k : Kind) (xs : List α)
  /-- copy-construct view `w` from `v` -/
  | copyView (w v : Nat)
  /-- move-construct view `w` from `v` -/
  | moveView (w v : Nat)
  /-- destroy a view -/
  | dropView (v : Nat)
  /-- a complete loop over a view -/
  | each (v : Nat)

/-- Moving elements away from a block `b` of a container: a block that moves along leaves an empty container behind, elements
inside the object are moved one by one (move constructors of containers, used by ranges.hpp:227,306). Gives the state, the
block of the target and the block of the source. -/
def moveBlock (s : St α) (b : Nat) : Kind → St α × Nat × Nat
  | .heap => ({ s with mem := upd s.mem s.fresh (.elems [] 0), fresh := s.fresh + 1 }, b, s.fresh)
  | .inline => ({ s with mem := upd (upd s.mem s.fresh (s.mem b)) b .husk, fresh := s.fresh + 1 }, s.fresh, b)

/-- Moving a view moves its test away (`std::ranges::filter_view` of ranges.hpp:126-128); the others have none
(ranges.hpp:223, fmt_join.hpp:14). -/
def How.hollowed : How α → Bool
  | .filt _ => true
  | _ => false

/-- One action of a program (ranges.hpp:120-147,203-313, fmt_join.hpp:12-38; `std::views::all`, `std::ranges::owning_view`, `std::ranges::ref_view`,
`std::ranges::filter_view` as in the standard). -/
def step (s : St α) : Cmd α → Out (St α)
  | .mk c k xs => match s.cont c with
    | .never => .ok { s with
        mem := upd s.mem s.fresh (.elems xs 0), fresh := s.fresh + 1, cont := upd s.cont c (.live (s.fresh, k)) }
    | _ => .bad
  | .assign c xs => match s.cont c with
    | .live (b, k) => match s.mem b with
      | .elems _ ver => match k with
        | .heap => .ok { s with mem := upd s.mem b (.elems xs (ver + 1)) }
        | .inline => .ok { s with mem := upd s.mem b (.elems xs ver) }
      | .husk => .ok { s with mem := upd s.mem b (.elems xs 0) }
      | .freed => .ub
    | _ => .bad
  | .drop c => match s.cont c with
    | .live (b, _) => .ok { s with mem := upd s.mem b .freed, cont := upd s.cont c .dead }
    | _ => .bad
  | .moveTo d c => match s.cont d, s.cont c with
    | .never, .live (b, k) =>
      let (s', bt, bs) := moveBlock s b k
      .ok { s' with cont := upd (upd s'.cont c (.live (bs, k))) d (.live (bt, k)) }
    | _, _ => .bad
  | .refView v how c => match s.view v, s.cont c with
    | .never, .live _ => .ok { s with view := upd s.view v (.live { how := how, src := .ref c }) }
    | _, _ => .bad
  | .ownView v how c => match s.view v, s.cont c with
    | .never, .live (b, k) =>
      let (s', bt, bs) := moveBlock s b k
      .ok { s' with cont := upd s'.cont c (.live (bs, k)),
                    view := upd s'.view v (.live { how := how, src := .own bt k }) }
    | _, _ => .bad
  | .temp v how k xs => match s.view v with
    | .never => .ok { s with
        mem := upd s.mem s.fresh (.elems xs 0), fresh := s.fresh + 1,
        view := upd s.view v (.live { how := how, src := .own s.fresh k }) }
    | _ => .bad
  | .copyView w v => match s.view w, s.view v with
    | .never, .live x => match x.src with
      | .ref _ => if x.hollow then .unspec else .ok { s with view := upd s.view w (.live { x with cache := none }) }
      | .own _ _ => .bad
    | _, _ => .bad
  | .moveView w v => match s.view w, s.view v with
    | .never, .live x =>
      if x.hollow then .unspec else
      match x.src with
      | .ref c => .ok { s with view := upd (upd s.view v (.live ⟨x.how, .ref c, none, x.how.hollowed⟩)) w
                                        (.live ⟨x.how, .ref c, none, false⟩) }
      | .own b k =>
        let (s', bt, bs) := moveBlock s b k
        .ok { s' with view := upd (upd s'.view v (.live ⟨x.how, .own bs k, none, x.how.hollowed⟩)) w
                                (.live ⟨x.how, .own bt k, none, false⟩) }
    | _, _ => .bad
  | .dropView v => match s.view v with
    | .live x => match x.src with
      | .ref _ => .ok { s with view := upd s.view v .dead }
      | .own b _ => .ok { s with mem := upd s.mem b .freed, view := upd s.view v .dead }
    | _ => .bad
  | .each v => (loop s v).bind fun (s', _) => .ok s'

/-- A program (uses of ranges.hpp:120-131,214-313). -/
def run (s : St α) : List (Cmd α) → Out (St α)
  | [] => .ok s
  | c :: l => (step s c).bind fun s' => run s' l

/-! ### Specification -/

/-- What a view over the elements `xs` is to show: all, those that differ from all earlier ones, or those that pass the test
(documentation in fmt_join.hpp:26, ranges.hpp:315-322 and ranges.hpp:157-160). -/
def shown : How α → List α → List α
  | .all, xs => xs
  | .uniq, xs => (xs.zipIdx.filter (fun p => (xs.take p.2).all (fun y => !decide (y = p.1)))).map Prod.fst
  | .filt keep, xs => xs.filter keep

/-- What a program has in a container: no such container, elements, or elements that were moved away (arguments of
ranges.hpp:306). -/
inductive Has (α : Type) where
  | absent
  | elems (k : Kind) (xs : List α)
  | moved
  deriving DecidableEq, Repr

/-- A container after its elements were moved away: a vector is empty, an array has elements without a specified value
(arguments `std::move(c)` of ranges.hpp:306). -/
def Has.moveOut : Has α → Has α
  | .absent => .absent
  | .elems .heap _ => .elems .heap []
  | .elems .inline _ => .moved
  | .moved => .moved

/-- What container `c` has after one action of a program (arguments of ranges.hpp:306); `old c` tells what a container had. -/
def track (old : Nat → Has α) : Cmd α → Nat → Has α
  | .mk c k xs => upd old c (.elems k xs)
  | .assign c xs => upd old c (match old c with
    | .elems k _ => .elems k xs
    | _ => .elems .inline xs)
  | .drop c => upd old c .absent
  | .moveTo d c => upd (upd old c (old c).moveOut) d (old c)
  | .ownView _ _ c => upd old c (old c).moveOut
  | _ => old

/-- What the containers have after a program (arguments of ranges.hpp:306): a plain reading of its actions, in which views and
loops play no part. -/
def history (cmds : List (Cmd α)) : Nat → Has α := cmds.foldl track (fun _ => .absent)

/-- The action changes container `c` (argument of ranges.hpp:306). -/
def changes (c : Nat) : Cmd α → Bool
  | .mk d _ _ => d == c
  | .assign d _ => d == c
  | .drop d => d == c
  | .moveTo d e => d == c || e == c
  | .ownView _ _ d => d == c
  | _ => false

/-- The action ends the life of view `v` or moves from it (results of ranges.hpp:306). -/
def spends (v : Nat) : Cmd α → Bool
  | .dropView w => w == v
  | .moveView _ w => w == v
  | _ => false

/-- What a loop over a view of elements in a container is to see: undefined behaviour without a container, nothing specified if
the elements were moved away (container of ranges.hpp:306). -/
def over (how : How α) : Has α → Out (List α)
  | .absent => .ub
  | .elems _ xs => .ok (shown how xs)
  | .moved => .unspec

/-- A complete loop over view `v` and later a change of container `c` (the cached position of `std::ranges::filter_view`,
ranges.hpp:126). -/
def loopedThenChanged (v c : Nat) : List (Cmd α) → Bool
  | [] => false
  | .each w :: l => (w == v && l.any (changes c)) || loopedThenChanged v c l
  | _ :: l => loopedThenChanged v c l

end Verif.Dangling
