import Verif.TypeList.Model

/-!
Model of polymorphic_allocator.hpp: the allocator itself, and containers using it the way the standard prescribes.

`A` is the type of values of the alternatives `Allocators<T>` (for all `T`). The variant holding one of them is its alternative and value;
for two alternatives that is `variant2`, modelled on its own. Allocators do not throw when copied or moved (the standard demands that), so
the variant is never valueless. Moving an allocator leaves its value unchanged (also demanded; that `pool_allocator` and `limit_allocator`
do not conform is C58).
-/
namespace Verif.PolyAlloc

variable {A : Type}

/-- The traits of an allocator that the modelled code looks at (polymorphic_allocator.hpp:121-124). -/
structure Traits where
  pocca : Bool
  pocma : Bool
  pocs : Bool
  alwaysEqual : Bool
deriving DecidableEq, Repr

/-- The alternatives: what they do for each index into `Allocators...` (polymorphic_allocator.hpp:108). -/
structure Env (A : Type) where
  /-- `operator==` -/
  eqv : Nat → A → A → Bool
  /-- the place memory comes from and has to be returned to -/
  src : Nat → A → Nat
  /-- conversion between `Allocators<T>` and `Allocators<U>` -/
  conv : Nat → A → A
  /-- `allocator_traits::select_on_container_copy_construction` -/
  socc : Nat → A → A
  /-- `allocator_traits::max_size` -/
  maxSize : Nat → A → Nat
  /-- the traits of each alternative -/
  traits : List Traits

/-- A `polymorphic_allocator`: the held alternative and its value (polymorphic_allocator.hpp:135-136, for one alternative 247-248). -/
structure Alloc (A : Type) where
  alt : Nat
  val : A
deriving DecidableEq, Repr

/-- `count_type<T, Ts...>::value` (polymorphic_allocator.hpp:55-69). -/
def countType {τ : Type} [DecidableEq τ] (t : τ) : List τ → Nat
  | [] => 0
  | t1 :: ts => (if t = t1 then 1 else 0) + countType t ts

/-- The `static_assert` that no allocator type occurs twice (polymorphic_allocator.hpp:112-113). -/
def distinctTypes {τ : Type} [DecidableEq τ] (ts : List τ) : Bool := ts.all fun t => countType t ts = 1

/-- `variant_index<T, std::variant<Ts...>>::value` (polymorphic_allocator.hpp:18-35). -/
def variantIndex {τ : Type} [DecidableEq τ] (t : τ) : List τ → Option Nat
  | [] => none
  | t1 :: ts => if t = t1 then some 0 else (variantIndex t ts).map (1 + ·)

/-- The converting constructor from `polymorphic_allocator<U, Allocators...>` (polymorphic_allocator.hpp:160-168, for one alternative
271-274). `types` are the `Allocators<U>...`. -/
def convert {τ : Type} [DecidableEq τ] (env : Env A) (types : List τ) (a : Alloc A) : Option (Alloc A) :=
  if types.length = 1 then some ⟨a.alt, env.conv a.alt a.val⟩
  else types[a.alt]?.bind fun t => (variantIndex t types).map fun ix => ⟨ix, env.conv a.alt a.val⟩

/-- `select_on_container_copy_construction` (polymorphic_allocator.hpp:200-206, for one alternative 301-303). -/
def selectOnCopy (env : Env A) (a : Alloc A) : Alloc A := ⟨a.alt, env.socc a.alt a.val⟩

/-- `operator==` (polymorphic_allocator.hpp:191, for one alternative 292), via `operator==` of the variant. -/
def eq (env : Env A) (a b : Alloc A) : Bool := if a.alt = b.alt then env.eqv a.alt a.val b.val else false

/-- `holds_allocator<UAllocator>` (polymorphic_allocator.hpp:211-222, for one alternative 308-319), where `UAllocator` is alternative
number `k`. -/
def holds (a : Alloc A) (k : Nat) : Bool := a.alt == k

/-- The traits of the `polymorphic_allocator` (polymorphic_allocator.hpp:121-124, for one alternative 233-236). -/
def polyTraits (ts : List Traits) : Traits := match ts with
  | [t] => t
  | ts => ⟨ts.all (·.pocca), ts.all (·.pocma), ts.all (·.pocs),
      ts.length = 1 && (match ts with | t :: _ => t.alwaysEqual | [] => false)⟩

/-- `allocator_traits<polymorphic_allocator>::max_size` for objects of `size` bytes: the default, since `polymorphic_allocator` has no
`max_size` (polymorphic_allocator.hpp:108-223). -/
def maxSize (_env : Env A) (_a : Alloc A) (size : Nat) : Nat := (2 ^ 64 - 1) / size

/-! ## Memory -/

/-- A source of memory: the alternative, and the place for allocators of that alternative (polymorphic_allocator.hpp:179-189). -/
structure Src where
  alt : Nat
  place : Nat
deriving DecidableEq, Repr

/-- The source the held allocator uses: `visit` of the variant calls the held alternative (polymorphic_allocator.hpp:179-189, for one
alternative 284-290). -/
def srcOf (env : Env A) (a : Alloc A) : Src := ⟨a.alt, env.src a.alt a.val⟩

/-- The blocks handed out and not returned: for each address the source and number of objects (polymorphic_allocator.hpp:179-189). -/
abbrev Heap := Nat → Option (Src × Nat)

/-- A result, or the misuse of an allocator (polymorphic_allocator.hpp:179-189). -/
inductive Res (σ : Type)
  | ok (s : σ)
  /-- memory was returned to a source that did not hand it out, or with a different size -/
  | illegalFree
  /-- the operation violates a precondition in the standard, or did not happen -/
  | excluded
deriving DecidableEq

/-- Sequencing (used for polymorphic_allocator.hpp:179-189). -/
def Res.bind {σ ρ : Type} (r : Res σ) (f : σ → Res ρ) : Res ρ := match r with
  | .ok s => f s
  | .illegalFree => .illegalFree
  | .excluded => .excluded

/-- `allocate(n)` (polymorphic_allocator.hpp:179-183, for one alternative 284-286). The address is chosen by the underlying allocator; it is
not in use. -/
def allocate (env : Env A) (a : Alloc A) (n addr : Nat) (h : Heap) : Res Heap := match h addr with
  | some _ => .excluded
  | none => .ok fun x => if x = addr then some (srcOf env a, n) else h x

/-- `deallocate(ptr, n)` (polymorphic_allocator.hpp:185-189, for one alternative 288-290). -/
def deallocate (env : Env A) (a : Alloc A) (addr n : Nat) (h : Heap) : Res Heap :=
  if h addr = some (srcOf env a, n) then .ok fun x => if x = addr then none else h x else .illegalFree

/-! ## Containers

Allocator-aware containers as the standard describes them, with at most one block of memory each. `node` containers allocate through a copy
of the allocator converted to another type each time. -/

/-- A container: its allocator and its block; client of polymorphic_allocator.hpp:108-223. -/
structure Cont (A : Type) where
  alloc : Alloc A
  node : Bool
  blk : Option (Nat × Nat)
deriving DecidableEq

/-- Containers by number and the heap; client of polymorphic_allocator.hpp:108-223. -/
structure St (A : Type) where
  heap : Heap
  conts : Nat → Option (Cont A)

/-- Overwrite one entry; client of polymorphic_allocator.hpp:108-223. -/
def upd {β : Type} (f : Nat → β) (i : Nat) (x : β) : Nat → β := fun j => if j = i then x else f j

/-- The allocator object a container allocates with (polymorphic_allocator.hpp:179-183). -/
def used {τ : Type} [DecidableEq τ] (env : Env A) (types : List τ) (node : Bool) (a : Alloc A) : Res (Alloc A) := match node with
  | false => .ok a
  | true => match convert env types a with
    | some a => .ok a
    | none => .excluded

/-- Returns the block of a container, if any (polymorphic_allocator.hpp:185-189). -/
def release {τ : Type} [DecidableEq τ] (env : Env A) (types : List τ) (c : Cont A) (h : Heap) : Res Heap := match c.blk with
  | none => .ok h
  | some (addr, n) => (used env types c.node c.alloc).bind fun a => deallocate env a addr n h

/-- Obtains a block (polymorphic_allocator.hpp:179-183). -/
def obtain' {τ : Type} [DecidableEq τ] (env : Env A) (types : List τ) (node : Bool) (a : Alloc A) (blk : Option (Nat × Nat)) (h : Heap) :
    Res Heap := match blk with
  | none => .ok h
  | some (addr, n) => (used env types node a).bind fun a => allocate env a n addr h

/-- What happens to containers; client of polymorphic_allocator.hpp:108-223. -/
inductive Op (A : Type)
  /-- construction at index `i` with an allocator, with space for some objects at some address -/
  | construct (i : Nat) (a : Alloc A) (node : Bool) (blk : Option (Nat × Nat))
  /-- copy construction of `i` from `j`; `addr` is the address of the new block, if one is needed -/
  | copyConstruct (i j addr : Nat)
  | moveConstruct (i j : Nat)
  | copyAssign (i j addr : Nat)
  | moveAssign (i j addr : Nat)
  | swap (i j : Nat)
  /-- e.g. reserve or shrink: get a new block and then return the old one -/
  | reallocate (i : Nat) (blk : Option (Nat × Nat))
  | destroy (i : Nat)

/-- The size of the block of a container, at a new address (client of polymorphic_allocator.hpp:179-183). -/
def newBlk (c : Cont A) (addr : Nat) : Option (Nat × Nat) := c.blk.map fun b => (addr, b.2)

/-- What the standard says containers do ([container.alloc.reqmts]); `t` are the traits of the allocator (client of
polymorphic_allocator.hpp:108-223). -/
def step {τ : Type} [DecidableEq τ] (env : Env A) (types : List τ) (s : St A) (op : Op A) : Res (St A) :=
  let t := polyTraits env.traits
  match op with
  | .construct i a node blk => match s.conts i with
    | some _ => .excluded
    | none =>
      if a.alt < env.traits.length then
        (obtain' env types node a blk s.heap).bind fun h => .ok ⟨h, upd s.conts i (some ⟨a, node, blk⟩)⟩
      else .excluded
  | .copyConstruct i j addr => match s.conts i, s.conts j with
    | none, some c =>
      (obtain' env types c.node (selectOnCopy env c.alloc) (newBlk c addr) s.heap).bind fun h =>
        .ok ⟨h, upd s.conts i (some ⟨selectOnCopy env c.alloc, c.node, newBlk c addr⟩)⟩
    | _, _ => .excluded
  | .moveConstruct i j => match s.conts i, s.conts j with
    | none, some c => .ok ⟨s.heap, upd (upd s.conts j (some { c with blk := none })) i (some c)⟩
    | _, _ => .excluded
  | .copyAssign i j addr => match s.conts i, s.conts j with
    | some d, some c =>
      if i = j then .ok s
      else if d.node ≠ c.node then .excluded
      else
        -- with propagation memory of an unequal allocator is returned first; here the old block is always returned
        (release env types d s.heap).bind fun h =>
          let a := if t.pocca then c.alloc else d.alloc
          (obtain' env types d.node a (newBlk c addr) h).bind fun h => .ok ⟨h, upd s.conts i (some ⟨a, d.node, newBlk c addr⟩)⟩
    | _, _ => .excluded
  | .moveAssign i j addr => match s.conts i, s.conts j with
    | some d, some c =>
      if i = j then .ok s
      else if d.node ≠ c.node then .excluded
      else
        (release env types d s.heap).bind fun h =>
          if t.pocma then .ok ⟨h, upd (upd s.conts j (some { c with blk := none })) i (some ⟨c.alloc, d.node, c.blk⟩)⟩
          else if t.alwaysEqual || eq env d.alloc c.alloc then
            .ok ⟨h, upd (upd s.conts j (some { c with blk := none })) i (some ⟨d.alloc, d.node, c.blk⟩)⟩
          else
            (obtain' env types d.node d.alloc (newBlk c addr) h).bind fun h => .ok ⟨h, upd s.conts i (some ⟨d.alloc, d.node, newBlk c addr⟩)⟩
    | _, _ => .excluded
  | .swap i j => match s.conts i, s.conts j with
    | some d, some c =>
      if d.node ≠ c.node then .excluded
      else if t.pocs then .ok ⟨s.heap, upd (upd s.conts i (some c)) j (some d)⟩
      else if t.alwaysEqual || eq env d.alloc c.alloc then
        .ok ⟨s.heap, upd (upd s.conts i (some { d with blk := c.blk })) j (some { c with blk := d.blk })⟩
      else .excluded
    | _, _ => .excluded
  | .reallocate i blk => match s.conts i with
    | some d =>
      (obtain' env types d.node d.alloc blk s.heap).bind fun h => (release env types d h).bind fun h =>
        .ok ⟨h, upd s.conts i (some { d with blk := blk })⟩
    | none => .excluded
  | .destroy i => match s.conts i with
    | some d => (release env types d s.heap).bind fun h => .ok ⟨h, upd s.conts i none⟩
    | none => .excluded

/-- A history of containers; client of polymorphic_allocator.hpp:108-223. -/
def run {τ : Type} [DecidableEq τ] (env : Env A) (types : List τ) : St A → List (Op A) → Res (St A)
  | s, [] => .ok s
  | s, op :: ops => (step env types s op).bind fun s => run env types s ops

/-- No containers; client of polymorphic_allocator.hpp:108-223. -/
def initial : St A := ⟨fun _ => none, fun _ => none⟩

end Verif.PolyAlloc
