/-!
# Comparison operators of the class templates, with element comparisons that may throw

Models the `==` and `<=>` of flex_array, standard_layout_tuple, integral_template_tuple, integral_template_variant and
variant2, down to which element comparisons are called. The comparisons of an element type are arbitrary programs: they
leave a trace (`Ev`: whatever the calls of user code record) and return, throw, or terminate the program. Types nest: a tuple
of flex_arrays of variants is again a `Ty`.

Not modelled: reading elements without a value (C20, C94), the exact comparison category (`strong`, `weak`, `partial`; one type
`Cmp` serves all three), and the shortcuts of the standard library for bytes (`memcmp`), which are not observable.
-/

namespace Verif.Compare

/-- What happens when a comparison is evaluated (flex_array.hpp:54, 99-107, 152-153, 197-205, 415; standard_layout_tuple.hpp:63-64,
143-144; variant2.hpp:724-776). `illFormed`: the program does not compile. -/
inductive Out (β : Type) where
  | ok (b : β)
  | threw
  | terminated
  | illFormed
  deriving DecidableEq, Repr

/-- Results of `<=>` (variant2.hpp:747: the common category of the alternatives' results). -/
inductive Cmp where
  | less
  | equal
  | greater
  | unordered
  deriving DecidableEq, Repr

/-- One evaluated comparison: the trace left by user code, and the outcome (of variant2.hpp:724-776 and the others). -/
structure R (Ev : Type) (β : Type) where
  calls : List Ev
  out : Out β
  deriving DecidableEq, Repr

/-- A value known without calling user code (variant2.hpp:725-727, 737-739). -/
def R.pure {Ev β : Type} (b : β) : R Ev β := ⟨[], .ok b⟩

/-- First evaluate `r`; go on with its value, if there is one (sequencing in flex_array.hpp:99-107, standard_layout_tuple.hpp:143-144). -/
def R.bind {Ev α β : Type} (r : R Ev α) (f : α → R Ev β) : R Ev β :=
  match r.out with
  | .ok a => ⟨r.calls ++ (f a).calls, (f a).out⟩
  | .threw => ⟨r.calls, .threw⟩
  | .terminated => ⟨r.calls, .terminated⟩
  | .illFormed => ⟨r.calls, .illFormed⟩

/-- A `noexcept` function: an exception leaving it calls `std::terminate` (flex_array.hpp:54, 84, 91, 99, 105, 152-153, 197, 203,
415; standard_layout_tuple.hpp:63-64, 143-144; integral_template_tuple.hpp:124-125; integral_template_variant.hpp:131-132;
variant2.hpp:724, 746). -/
def noexcept {Ev β : Type} (r : R Ev β) : R Ev β :=
  match r.out with
  | .threw => ⟨r.calls, .terminated⟩
  | _ => r

/-- A type, as far as comparing is concerned: its values, and the operators it has (`none`: it has no such operator). `lt` is a
`<` of its own, not one derived from `<=>`. (Template arguments of flex_array.hpp:252-255, standard_layout_tuple.hpp:42-43,
variant2.hpp:178-179.) -/
structure Ty (Ev : Type) where
  carrier : Type
  eq : Option (carrier → carrier → R Ev Bool)
  lt : Option (carrier → carrier → R Ev Bool)
  cmp : Option (carrier → carrier → R Ev Cmp)

variable {Ev : Type}

/-- The expression `x < y`: the `<` of the type, else rewritten to `(x <=> y) < 0` (used by flex_array.hpp:54, 153 through the
`<=>` of the standard containers). -/
def Ty.less (t : Ty Ev) : Option (t.carrier → t.carrier → R Ev Bool) :=
  match t.lt with
  | some l => some l
  | none => t.cmp.map fun c x y => (c x y).bind fun r => .pure (decide (r = .less))

/-- `std::three_way_comparable`: `==` and `<=>` (variant2.hpp:746; also demanded by `std::compare_three_way`, the default
comparison of flex_array.hpp:102, 200). -/
def Ty.threeWayComparable (t : Ty Ev) : Bool := t.eq.isSome && t.cmp.isSome

/-- `synth-three-way` of the standard library, used by the `<=>` of `std::array` and `std::vector` (flex_array.hpp:54, 153):
`<=>` if the type is three-way comparable, otherwise `<` both ways. -/
def Ty.synth (t : Ty Ev) : Option (t.carrier → t.carrier → R Ev Cmp) :=
  if t.threeWayComparable then t.cmp
  else t.less.map fun l x y => (l x y).bind fun b =>
    if b then .pure .less else (l y x).bind fun b' => .pure (if b' then .greater else .equal)

/-- `std::ranges::equal` after the sizes were found equal, and the `==` of `std::array` (flex_array.hpp:54, 91-95, 152, 189-193). -/
def eqLoop {α : Type} (e : α → α → R Ev Bool) : List α → List α → R Ev Bool
  | x :: xs, y :: ys => (e x y).bind fun b => if b then eqLoop e xs ys else .pure false
  | _, _ => .pure true

/-- `std::ranges::equal` on sized ranges, and the `==` of `std::vector`: sizes first (flex_array.hpp:91-95, 152, 189-193). -/
def rangeEq {α : Type} (e : α → α → R Ev Bool) (xs ys : List α) : R Ev Bool :=
  if xs.length = ys.length then eqLoop e xs ys else .pure false

/-- `std::lexicographical_compare_three_way` (flex_array.hpp:99-103, 197-201), also the `<=>` of `std::array` and `std::vector`
(flex_array.hpp:54, 153). -/
def cmpLoop {α : Type} (c : α → α → R Ev Cmp) : List α → List α → R Ev Cmp
  | [], [] => .pure .equal
  | [], _ :: _ => .pure .less
  | _ :: _, [] => .pure .greater
  | x :: xs, y :: ys => (c x y).bind fun r => if r = .equal then cmpLoop c xs ys else .pure r

/-- The modes of flex_array, by extents: fixed size, bounded dynamic size (buffer inside), unbounded size (`std::vector`), small-size optimised
(flex_array.hpp:21-26, 34-40, 57-63, 130-134, 157-163). -/
inductive Mode where
  | static (n : Nat)
  | limited (max : Nat)
  | vector
  | small
  deriving DecidableEq, Repr

/-- The sizes an array of the mode can have (flex_array.hpp:42-44, 65-72, 135-137, 165-167). -/
def Mode.Fits : Mode → Nat → Prop
  | .static n, k => k = n
  | .limited max, k => k ≤ max
  | .vector, _ => True
  | .small, _ => True

/-- The elements of a flex_array of the mode (flex_array.hpp:252-255). -/
def FlexVal (m : Mode) (α : Type) : Type := { xs : List α // m.Fits xs.length }

/-- `==` of the inner type: of `std::array` (flex_array.hpp:54: implicitly declared with the defaulted `<=>`), of `std::vector`
(flex_array.hpp:152), or hand-written (flex_array.hpp:105-107, 203-205). -/
def innerEq (m : Mode) {α : Type} (e : α → α → R Ev Bool) (a b : FlexVal m α) : R Ev Bool :=
  match m, a, b with
  | .static _, a, b => noexcept (eqLoop e a.val b.val)
  | .limited _, a, b => noexcept (noexcept (rangeEq e a.val b.val))
  | .vector, a, b => noexcept (rangeEq e a.val b.val)
  | .small, a, b => noexcept (noexcept (rangeEq e a.val b.val))

/-- `<=>` of the inner type: of `std::array` or `std::vector` with synth-three-way (flex_array.hpp:54, 153), or hand-written
(flex_array.hpp:99-103, 197-201). The hand-written one exists if `x <=> x` does, and then demands `std::three_way_comparable`. -/
def innerCmp (m : Mode) (t : Ty Ev) : Option (FlexVal m t.carrier → FlexVal m t.carrier → R Ev Cmp) :=
  match m with
  | .static _ | .vector => t.synth.map fun c a b => noexcept (cmpLoop c a.val b.val)
  | .limited _ | .small => t.cmp.map fun c a b =>
      if t.eq.isSome then noexcept (cmpLoop c a.val b.val) else ⟨[], .illFormed⟩

/-- flex_array (flex_array.hpp:252-255, 415): `<=>` is defaulted, `==` implicitly declared with it; both call the operator of the
inner type. It has no `<` of its own. -/
def flex (m : Mode) (t : Ty Ev) : Ty Ev where
  carrier := FlexVal m t.carrier
  eq := t.eq.map fun e a b => noexcept (innerEq m e a b)
  lt := none
  cmp := (innerCmp m t).map fun c a b => noexcept (c a b)

/-- `standard_layout_tuple<>` (standard_layout_tuple.hpp:45-65). -/
def emptyTuple : Ty Ev where
  carrier := Unit
  eq := some fun _ _ => .pure true
  lt := none
  cmp := some fun _ _ => .pure .equal

/-- `standard_layout_tuple<T, Ts...>` (standard_layout_tuple.hpp:67-71, 143-144): the defaulted operators compare `first`, then
`rest`, until one is decisive. They exist if both have the operator. -/
def consTuple (t rest : Ty Ev) : Ty Ev where
  carrier := t.carrier × rest.carrier
  eq := t.eq.bind fun e => rest.eq.map fun er a b =>
    noexcept ((e a.1 b.1).bind fun r => if r then er a.2 b.2 else .pure false)
  lt := none
  cmp := t.cmp.bind fun c => rest.cmp.map fun cr a b =>
    noexcept ((c a.1 b.1).bind fun r => if r = .equal then cr a.2 b.2 else .pure r)

/-- `standard_layout_tuple<Ts...>` (standard_layout_tuple.hpp:45-145). -/
def tuple : List (Ty Ev) → Ty Ev
  | [] => emptyTuple
  | t :: ts => consTuple t (tuple ts)

/-- integral_template_tuple: derived from standard_layout_tuple, without members of its own (integral_template_tuple.hpp:39,
124-125). -/
def integralTuple (ts : List (Ty Ev)) : Ty Ev where
  carrier := (tuple ts).carrier
  eq := (tuple ts).eq.map fun e a b => noexcept (e a b)
  lt := none
  cmp := (tuple ts).cmp.map fun c a b => noexcept (c a b)

/-- The values of alternatives: the first alternative, or one of the others (position = number of steps)
(integral_template_variant.hpp:50). -/
def Alts : List (Ty Ev) → Type
  | [] => Empty
  | t :: ts => t.carrier ⊕ Alts ts

/-- Do all alternatives have `==`? Then compare the positions, then the values (`std::variant`'s `==`, called by
integral_template_variant.hpp:132). -/
def altsEq : (ts : List (Ty Ev)) → Option (Alts ts → Alts ts → R Ev Bool)
  | [] => some fun x _ => nomatch x
  | t :: ts => t.eq.bind fun e => (altsEq ts).map fun er a b => match a, b with
    | .inl x, .inl y => e x y
    | .inr x, .inr y => er x y
    | _, _ => .pure false

/-- Are all alternatives three-way comparable? Then compare the positions, then the values (`std::variant`'s `<=>`, called by
integral_template_variant.hpp:131). -/
def altsCmp : (ts : List (Ty Ev)) → Option (Alts ts → Alts ts → R Ev Cmp)
  | [] => some fun x _ => nomatch x
  | t :: ts => (if t.threeWayComparable then t.cmp else none).bind fun c => (altsCmp ts).map fun cr a b => match a, b with
    | .inl x, .inl y => c x y
    | .inr x, .inr y => cr x y
    | .inl _, .inr _ => .pure .less
    | .inr _, .inl _ => .pure .greater

/-- integral_template_variant over the alternatives `T<ix>` (integral_template_variant.hpp:48-51, 131-132); the value `none`: valueless by
exception. The defaulted operators call those of `std::variant`. -/
def integralVariant (ts : List (Ty Ev)) : Ty Ev where
  carrier := Option (Alts ts)
  eq := (altsEq ts).map fun e a b => noexcept (match a, b with
    | none, none => .pure true
    | some x, some y => e x y
    | _, _ => .pure false)
  lt := none
  cmp := (altsCmp ts).map fun c a b => noexcept (match a, b with
    | none, none => .pure .equal
    | none, some _ => .pure .less
    | some _, none => .pure .greater
    | some x, some y => c x y)

/-- `==` of variant2 (variant2.hpp:724-744). -/
def variant2Eq {α β : Type} (e : α → α → R Ev Bool) (e' : β → β → R Ev Bool) (a b : Option (α ⊕ β)) : R Ev Bool :=
  noexcept (match a, b with
    | some (.inl x), some (.inl y) => e x y
    | some (.inr x), some (.inr y) => e' x y
    | none, none => .pure true
    | _, _ => .pure false)

/-- `<=>` of variant2 (variant2.hpp:746-776). -/
def variant2Cmp {α β : Type} (c : α → α → R Ev Cmp) (c' : β → β → R Ev Cmp) (a b : Option (α ⊕ β)) : R Ev Cmp :=
  noexcept (match a, b with
    | none, some _ => .pure .less
    | some _, none => .pure .greater
    | some (.inl _), some (.inr _) => .pure .less
    | some (.inr _), some (.inl _) => .pure .greater
    | some (.inl x), some (.inl y) => c x y
    | some (.inr x), some (.inr y) => c' x y
    | none, none => .pure .equal)

/-- variant2 (variant2.hpp:178-179, 724, 746): `==` if both alternatives have it, `<=>` if both are three-way comparable. -/
def variant2 (t u : Ty Ev) : Ty Ev where
  carrier := Option (t.carrier ⊕ u.carrier)
  eq := t.eq.bind fun e => u.eq.map fun e' => variant2Eq e e'
  lt := none
  cmp := if t.threeWayComparable && u.threeWayComparable then t.cmp.bind fun c => u.cmp.map fun c' => variant2Cmp c c'
    else none

/-- The operators the language derives (of flex_array.hpp:415 and the others): `a != b` is `!(a == b)`. -/
def Ty.ne (t : Ty Ev) : Option (t.carrier → t.carrier → R Ev Bool) :=
  t.eq.map fun e a b => (e a b).bind fun r => .pure (!r)

/-- `a <= b` is `(a <=> b) <= 0` (flex_array.hpp:415 and the others). -/
def Ty.le (t : Ty Ev) : Option (t.carrier → t.carrier → R Ev Bool) :=
  t.cmp.map fun c a b => (c a b).bind fun r => .pure (decide (r = .less ∨ r = .equal))

/-- `a > b` is `(a <=> b) > 0` (flex_array.hpp:415 and the others). -/
def Ty.gt (t : Ty Ev) : Option (t.carrier → t.carrier → R Ev Bool) :=
  t.cmp.map fun c a b => (c a b).bind fun r => .pure (decide (r = .greater))

/-- `a >= b` is `(a <=> b) >= 0` (flex_array.hpp:415 and the others). -/
def Ty.ge (t : Ty Ev) : Option (t.carrier → t.carrier → R Ev Bool) :=
  t.cmp.map fun c a b => (c a b).bind fun r => .pure (decide (r = .greater ∨ r = .equal))

/-! ### Hashes -/

/-- `std::hash` of the alternatives, each with its position (`hs` lists the hashes of the alternatives; `std::hash` of `std::variant` in libstdc++
adds the position and the hash of the value; called by integral_template_variant.hpp:138-143). -/
def altsHash : (ts : List (Ty Ev)) → ((t : Ty Ev) → t.carrier → R Ev Nat) → Nat → Alts ts → R Ev Nat
  | [], _, _, x => nomatch x
  | t :: _, h, k, .inl x => (h t x).bind fun n => .pure (k + n)
  | _ :: ts, h, k, .inr x => altsHash ts h (k + 1) x

/-- `std::hash` of integral_template_variant (integral_template_variant.hpp:137-143); `npos` is the hash of a valueless variant. The function
is `noexcept`. Simplified: sums are not reduced modulo `2^64`. -/
def integralVariantHash (ts : List (Ty Ev)) (h : (t : Ty Ev) → t.carrier → R Ev Nat) (npos : Nat) (a : (integralVariant ts).carrier) :
    R Ev Nat :=
  noexcept (match (show Option (Alts ts) from a) with
    | none => .pure npos
    | some x => altsHash ts h 0 x)

/-- `std::hash` of variant2 (variant2.hpp:41-53): visits the variant, which throws `bad_variant_access` if it is valueless; adds the hash
`hsz` of the position and that of the value. The function is `noexcept`. Simplified: sums are not reduced modulo `2^64`; `const` alternatives: see C76. -/
def variant2Hash (t u : Ty Ev) (hsz : Nat → Nat) (h : (t : Ty Ev) → t.carrier → R Ev Nat) (a : (variant2 t u).carrier) : R Ev Nat :=
  noexcept (match (show Option (t.carrier ⊕ u.carrier) from a) with
    | none => ⟨[], .threw⟩
    | some (.inl x) => (h t x).bind fun n => .pure (hsz 0 + n)
    | some (.inr x) => (h u x).bind fun n => .pure (hsz 1 + n))

end Verif.Compare
