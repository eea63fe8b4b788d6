/-!
Model of type_list.hpp. Types are elements of a type `τ` with decidable equality (`std::is_same`), type lists are lists.
A metafunction that has no member `type`/`value`, or whose instantiation is ill-formed, returns `none`; `opt` does not compile in the second case
if the error is outside the immediate context, which is not distinguished here.

Compile-time predicates and functions passed as template arguments may themselves be ill-formed for some types, so they return `Option`.
-/
namespace Verif.TypeList

variable {τ υ ρ σ ε : Type}

/-- `size` (type_list.hpp:27-35). -/
def size : List τ → Nat
  | [] => 0
  | _ :: l => size l + 1

/-- `first` (type_list.hpp:44-57). -/
def first : List τ → Option τ
  | [] => none
  | t :: _ => some t

/-- `__type_pack_element<idx, Ts...>`; ill-formed if out of range (used in type_list.hpp:70-77, 108-115). -/
def packElement : Nat → List τ → Option τ
  | _, [] => none
  | 0, t :: _ => some t
  | n + 1, _ :: l => packElement n l

/-- `last`, with the builtin (type_list.hpp:70-77). -/
def last : List τ → Option τ
  | [] => none
  | t :: ts => packElement (size ts) (t :: ts)

/-- `last`, without the builtin (type_list.hpp:79-91). -/
def lastFallback : List τ → Option τ
  | [] => none
  | [t] => some t
  | _ :: ts => lastFallback ts

/-- `nth`, with the builtin (type_list.hpp:108-115). -/
def nth (l : List τ) (idx : Nat) : Option τ := if idx < size l then packElement idx l else none

/-- `nth`, without the builtin (type_list.hpp:117-129). -/
def nthFallback : List τ → Nat → Option τ
  | [], _ => none
  | t :: _, 0 => some t
  | _ :: ts, idx + 1 => nthFallback ts idx

/-- `type_list<Ts..., Us...>` (used in type_list.hpp:140-167) -/
def join : List τ → List τ → List τ
  | [], us => us
  | t :: ts, us => t :: join ts us

/-- `concat` (type_list.hpp:140-167); two lists: 153-156, more: 158-164. -/
def concat : List (List τ) → List τ
  | [] => []
  | [l] => l
  | [l, k] => join l k
  | l :: ls => join l (concat ls)

/-- `drop` (type_list.hpp:176-190); undefined if `count` exceeds the size. -/
def drop : List τ → Nat → Option (List τ)
  | l, 0 => some l
  | [], _ + 1 => none
  | _ :: ts, n + 1 => drop ts n

/-- `take` (type_list.hpp:199-213); undefined if `count` exceeds the size. -/
def take : List τ → Nat → Option (List τ)
  | _, 0 => some []
  | [], _ + 1 => none
  | t :: ts, n + 1 => (take ts n).map fun r => concat [[t], r]

/-- `apply` (type_list.hpp:224-233); `Templ` is a template taking any number of types. -/
def apply (l : List τ) (templ : List τ → ρ) : ρ := templ l

/-- `unpack` (type_list.hpp:670-679); `args` are the template arguments of the type, if it is of the form `Container<Ts...>`. -/
def unpack (args : ρ → Option (List τ)) (t : ρ) : Option (List τ) := args t

/-- `transform` (type_list.hpp:254-263): all elements are transformed, one ill-formed call makes the result ill-formed. -/
def transform (func : τ → Option υ) : List τ → Option (List υ)
  | [] => some []
  | t :: ts => (func t).bind fun u => (transform func ts).map (u :: ·)

/-- `filter` (type_list.hpp:272-293). If `pred` is ill-formed neither constraint is satisfied, so there is no definition. -/
def filter (pred : τ → Option Bool) : List τ → Option (List τ)
  | [] => some []
  | t :: ts => match pred t with
    | none => none
    | some true => (filter pred ts).map fun r => concat [[t], r]
    | some false => filter pred ts

/-- `flatten` (type_list.hpp:300-309). -/
def flatten (ls : List (List τ)) : List τ := concat ls

/-- `std::make_index_sequence<n>` as used in type_list.hpp:332,538: counts up from `i`. -/
def indexSequence : Nat → Nat → List Nat
  | _, 0 => []
  | i, n + 1 => i :: indexSequence (i + 1) n

/-- `generate` (type_list.hpp:312-336). -/
def generate (count : Nat) (func : Nat → Option υ) : Option (List υ) := transform func (indexSequence 0 count)

/-- `find_if` (type_list.hpp:346-365). -/
def findIf (pred : τ → Option Bool) : List τ → Option τ
  | [] => none
  | t :: ts => match pred t with
    | none => none
    | some false => findIf pred ts
    | some true => some t

/-- `detail_position::position` (type_list.hpp:368-385). -/
def positionFrom (pred : τ → Option Bool) : List τ → Nat → Option Nat
  | [], _ => none
  | t :: ts, ix => match pred t with
    | none => none
    | some false => positionFrom pred ts (ix + 1)
    | some true => some ix

/-- `position` (type_list.hpp:390-394). -/
def position (pred : τ → Option Bool) (l : List τ) : Option Nat := positionFrom pred l 0

/-- `count` (type_list.hpp:403-419). -/
def count [DecidableEq τ] (needle : τ) : List τ → Nat
  | [] => 0
  | t :: ts => if t = needle then 1 + count needle ts else count needle ts

/-- `contains` (type_list.hpp:428-436): a fold over `||`. -/
def contains [DecidableEq τ] (needle : τ) : List τ → Bool
  | [] => false
  | t :: ts => decide (t = needle) || contains needle ts

/-- `all_of` (type_list.hpp:445-453): the fold expression is well-formed only if `pred` is for all types. -/
def allOf (pred : τ → Option Bool) : List τ → Option Bool
  | [] => some true
  | t :: ts => (pred t).bind fun b => (allOf pred ts).map (b && ·)

/-- `any_of` (type_list.hpp:462-470). -/
def anyOf (pred : τ → Option Bool) : List τ → Option Bool
  | [] => some false
  | t :: ts => (pred t).bind fun b => (anyOf pred ts).map (b || ·)

/-- `none_of` (type_list.hpp:479-487). -/
def noneOf (pred : τ → Option Bool) : List τ → Option Bool
  | [] => some true
  | t :: ts => (pred t).bind fun b => (noneOf pred ts).map (!b && ·)

/-- The fold in `all_same` (type_list.hpp:503). -/
def sameAs [DecidableEq τ] (t : τ) : List τ → Bool
  | [] => true
  | u :: us => decide (t = u) && sameAs t us

/-- `all_same` (type_list.hpp:495-507). -/
def allSame [DecidableEq τ] : List τ → Bool
  | [] => true
  | t :: ts => sameAs t ts

/-- `integer_sequence_to_type_list` (type_list.hpp:513-522); `const` is `std::integral_constant<Int, _>`. -/
def integerSequenceToTypeList (const : Int → τ) : List Int → List τ
  | [] => []
  | i :: is => const i :: integerSequenceToTypeList const is

/-- `tuple_to_type_list` (type_list.hpp:528-542) of a type with `std::tuple_size` and `std::tuple_element`. -/
def tupleToTypeList (tupleSize : Nat) (tupleElement : Nat → Option τ) : Option (List τ) :=
  transform tupleElement (indexSequence 0 tupleSize)

/-- The members of a metafunction: `type` and `value`, each present or not (the concepts of type_list.hpp:544-562). -/
structure Meta (τ ν : Type) where
  type : Option τ
  value : Option ν

/-- `opt` (type_list.hpp:579-604): the primary template and its three specialisations. -/
def opt {ν : Type} (nulloptType : τ) (nulloptValue : ν) (t : Meta τ ν) : τ × ν := match t.type, t.value with
  | none, none => (nulloptType, nulloptValue)
  | some u, none => (u, nulloptValue)
  | none, some v => (nulloptType, v)
  | some u, some v => (u, v)

/-- `for_each` (type_list.hpp:613-627): a call of `func` may change the state or throw. -/
def forEach (func : σ → τ → Except ε σ) : List τ → σ → Except ε σ
  | [], s => .ok s
  | t :: ts, s => match func s t with
    | .error e => .error e
    | .ok s' => forEach func ts s'

/-- `fold` (type_list.hpp:629-649): `init = func(std::move(init), t)` for each type; a call may also change a state or throw. -/
def fold (func : σ → ρ → τ → Except ε (ρ × σ)) : List τ → ρ → σ → Except ε (ρ × σ)
  | [], acc, s => .ok (acc, s)
  | t :: ts, acc, s => match func s acc t with
    | .error e => .error e
    | .ok (acc', s') => fold func ts acc' s'

/-- `unique_impl` (type_list.hpp:682-700). -/
def uniqueImpl [DecidableEq τ] : List τ → List τ → List τ
  | seen, [] => seen
  | seen, t :: ts => if contains t seen then uniqueImpl seen ts else uniqueImpl (join seen [t]) ts

/-- `unique` (type_list.hpp:714-723). -/
def unique [DecidableEq τ] (l : List τ) : List τ := uniqueImpl [] l

/-- The specialisations of `unique_impl` that are instantiated to compute one: `std::conditional_t` is given the `type` of both
(type_list.hpp:695-698), so both are instantiated. -/
def uniqueInstances : List τ → List τ → List (List τ × List τ)
  | seen, [] => [(seen, [])]
  | seen, t :: ts => (seen, t :: ts) :: (uniqueInstances seen ts ++ uniqueInstances (join seen [t]) ts)

/-- `all_distinct` (type_list.hpp:739-744). -/
def allDistinct [DecidableEq τ] (l : List τ) : Bool := decide (size l = size (unique l))

end Verif.TypeList
