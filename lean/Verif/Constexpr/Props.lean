import Verif.Constexpr.Model

/-!
# C93: which calls of `constexpr` functions are constant expressions
-/
namespace Verif.Constexpr

variable {V : Type}

/-! ### Specification -/

/-- An array inside the object or none at all: `std::array`. -/
def Mode.direct : Mode → Bool
  | .static _ => true
  | .limited _ => true
  | _ => false

/-- Everything but the small-buffer vector. -/
def Mode.std : Mode → Bool
  | .sbo _ => false
  | _ => true

/-- The operations on arrays of the given types that can be part of a constant expression. -/
def usable (Γ : Nat → Mode) : Op V → Bool
  | .dflt d => (Γ d).std
  | .ofInit d _ => (Γ d).direct
  | .ofRange d _ => (Γ d).std
  | .toStatic _ s => (Γ s).direct
  | .ofStatic d _ => (Γ d).direct
  | .copy _ s => (Γ s).std
  | .move _ s => (Γ s).std
  | .assign _ s => (Γ s).std
  | .moveAssign _ s => (Γ s).std
  | .swap a _ => (Γ a).std
  | .destroy a => (Γ a).std
  | .size a => (Γ a).direct
  | .isEmpty a => (Γ a).direct
  | .begin a => (Γ a).std
  | .finish a => (Γ a).direct
  | .span _ => false
  | .read a _ => (Γ a).std
  | .write a _ _ => (Γ a).std
  | .compare a _ => match Γ a with
    | .static _ => true
    | .vector => true
    | _ => false

/-! ### `flex_array` -/

theorem bind_ok {α β : Type} {x : Ev α} {f : α → Ev β} {r : β} (h : x.bind f = .ok r) : ∃ a, x = .ok a ∧ f a = .ok r := by
  cases x with
  | error e => simp [Except.bind] at h
  | ok a => exact ⟨a, rfl, h⟩

theorem bind_err {α β : Type} {x : Ev α} {f : α → Ev β} {a : α} {e : Stop} (hx : x = .ok a) (h : f a = .error e) : x.bind f = .error e := by
  subst hx; exact h

theorem step_usable (E : Elem V) (Γ : Nat → Mode) (σ : St V) (op : Op V) (h : usable Γ op = true) :
    step .compile E Γ σ op = step .run E Γ σ op := by
  cases op <;> simp only [usable] at h
  case dflt d => cases hm : Γ d <;> simp [hm, Mode.std] at h <;> simp [step, hm, fresh]
  case ofInit d l => cases hm : Γ d <;> simp [hm, Mode.direct] at h <;> simp [step, hm, ofInit, fresh, Mode.dynamic, setSize]
  case ofRange d l => cases hm : Γ d <;> simp [hm, Mode.std] at h <;> simp [step, hm, ofRange, fresh, setSize]
  case toStatic d s => cases hm : Γ s <;> simp [hm, Mode.direct] at h <;> simp [step, hm, toStatic, fresh, sizeOf, Mode.dynamic]
  case ofStatic d s =>
    cases hm : Γ d <;> simp [hm, Mode.direct] at h <;> cases hs : Γ s <;> simp [step, hm, hs, ofStatic, fresh, sizeOf, setSize, Mode.dynamic]
  case copy d s => cases hm : Γ s <;> simp [hm, Mode.std] at h <;> simp [step, hm, svector]
  case move d s => cases hm : Γ s <;> simp [hm, Mode.std] at h <;> simp [step, hm, svector]
  case assign d s => cases hm : Γ s <;> simp [hm, Mode.std] at h <;> simp [step, hm, svector]
  case moveAssign d s => cases hm : Γ s <;> simp [hm, Mode.std] at h <;> simp [step, hm, svector]
  case swap a b => cases hm : Γ a <;> simp [hm, Mode.std] at h <;> simp [step, hm, svector]
  case destroy a => cases hm : Γ a <;> simp [hm, Mode.std] at h <;> simp [step, hm, svector]
  case size a => cases hm : Γ a <;> simp [hm, Mode.direct] at h <;> simp [step, hm, sizeOf]
  case isEmpty a => cases hm : Γ a <;> simp [hm, Mode.direct] at h <;> simp [step, hm, sizeOf]
  case begin a => cases hm : Γ a <;> simp [hm, Mode.std] at h <;> simp [step, hm, svector]
  case finish a => cases hm : Γ a <;> simp [hm, Mode.direct] at h <;> simp [step, hm, svector, sizeOf]
  case span a => simp at h
  case read a i => cases hm : Γ a <;> simp [hm, Mode.std] at h <;> simp [step, hm, readAt, svector]
  case write a i v => cases hm : Γ a <;> simp [hm, Mode.std] at h <;> simp [step, hm, writeAt, svector]
  case compare a b => cases hm : Γ a <;> simp [hm] at h <;> simp [step, hm, compareArr]

theorem step_unusable (E : Elem V) (Γ : Nat → Mode) (σ : St V) (op : Op V) (h : usable Γ op = false) {p : St V × Seen V}
    (hr : step .run E Γ σ op = .ok p) : step .compile E Γ σ op = .error .notConstant := by
  cases op <;> simp only [usable] at h
  case dflt d => cases hm : Γ d <;> simp [hm, Mode.std] at h; simp [step, hm, fresh, svector, notConstexpr, Except.bind]
  case ofInit d l =>
    cases hm : Γ d <;> simp [hm, Mode.direct] at h <;>
      simp [step, hm, ofInit, fresh, svector, notConstexpr, Except.bind, Mode.max, Mode.dynamic, setSize]
  case ofRange d l => cases hm : Γ d <;> simp [hm, Mode.std] at h; simp [step, hm, ofRange, fresh, svector, notConstexpr, Except.bind]
  case toStatic d s =>
    obtain ⟨o, ho, h2⟩ := bind_ok hr
    cases hd : Γ d <;> rw [hd] at h2 <;> simp at h2
    cases hm : Γ s <;> simp [hm, Mode.direct] at h <;> simp [step, ho, hd, hm, Mode.dynamic, toStatic, fresh, sizeOf, notConstexpr, Except.bind]
  case ofStatic d s =>
    obtain ⟨o, ho, h2⟩ := bind_ok hr
    cases hd : Γ s <;> rw [hd] at h2 <;> simp at h2
    cases hm : Γ d <;> simp [hm, Mode.direct] at h <;> simp [step, ho, hd, hm, Mode.dynamic, ofStatic, fresh, sizeOf, setSize, svector, notConstexpr, Except.bind] <;>
      simp [hm, Mode.dynamic] at h2
  case copy d s =>
    obtain ⟨o, ho, h2⟩ := bind_ok hr
    cases hm : Γ s <;> simp [hm, Mode.std] at h
    by_cases he : Γ d = Γ s
    · simp [step, ho, he, hm, svector, notConstexpr, Except.bind]
    · simp [he] at h2
  case move d s =>
    obtain ⟨o, ho, h2⟩ := bind_ok hr
    cases hm : Γ s <;> simp [hm, Mode.std] at h
    by_cases he : Γ d = Γ s
    · simp [step, ho, he, hm, svector, notConstexpr, Except.bind]
    · simp [he] at h2
  case assign d s =>
    obtain ⟨o', ho', h1⟩ := bind_ok hr
    obtain ⟨o, ho, h2⟩ := bind_ok h1
    cases hm : Γ s <;> simp [hm, Mode.std] at h
    by_cases he : Γ d = Γ s
    · simp [step, ho, ho', he, hm, svector, notConstexpr, Except.bind]
    · simp [he] at h2
  case moveAssign d s =>
    obtain ⟨o', ho', h1⟩ := bind_ok hr
    obtain ⟨o, ho, h2⟩ := bind_ok h1
    cases hm : Γ s <;> simp [hm, Mode.std] at h
    by_cases he : Γ d = Γ s
    · simp [step, ho, ho', he, hm, svector, notConstexpr, Except.bind]
    · simp [he] at h2
  case swap a b =>
    obtain ⟨o', ho', h1⟩ := bind_ok hr
    obtain ⟨o, ho, h2⟩ := bind_ok h1
    cases hm : Γ a <;> simp [hm, Mode.std] at h
    by_cases he : Γ a = Γ b
    · rw [hm] at he
      simp [step, ho, ho', ← he, hm, svector, notConstexpr, Except.bind]
    · simp [he] at h2
  case destroy a =>
    obtain ⟨o, ho, h2⟩ := bind_ok hr
    cases hm : Γ a <;> simp [hm, Mode.std] at h
    simp [step, ho, hm, svector, notConstexpr, Except.bind]
  case size a =>
    obtain ⟨o, ho, h2⟩ := bind_ok hr
    cases hm : Γ a <;> simp [hm, Mode.direct] at h <;> simp [step, ho, hm, sizeOf, notConstexpr, Except.bind]
  case isEmpty a =>
    obtain ⟨o, ho, h2⟩ := bind_ok hr
    cases hm : Γ a <;> simp [hm, Mode.direct] at h <;> simp [step, ho, hm, sizeOf, notConstexpr, Except.bind]
  case begin a =>
    obtain ⟨o, ho, h2⟩ := bind_ok hr
    cases hm : Γ a <;> simp [hm, Mode.std] at h
    simp [step, ho, hm, svector, notConstexpr, Except.bind]
  case finish a =>
    obtain ⟨o, ho, h2⟩ := bind_ok hr
    cases hm : Γ a <;> simp [hm, Mode.direct] at h <;> simp [step, ho, hm, sizeOf, svector, notConstexpr, Except.bind]
  case span a =>
    obtain ⟨o, ho, h2⟩ := bind_ok hr
    simp [step, ho, toSpan, notConstexpr, Except.bind]
  case read a i =>
    obtain ⟨o, ho, h2⟩ := bind_ok hr
    cases hm : Γ a <;> simp [hm, Mode.std] at h
    simp [step, ho, hm, readAt, svector, notConstexpr, Except.bind]
  case write a i v =>
    obtain ⟨o, ho, h2⟩ := bind_ok hr
    cases hm : Γ a <;> simp [hm, Mode.std] at h
    simp [step, ho, hm, writeAt, svector, notConstexpr, Except.bind]
  case compare a b =>
    obtain ⟨o', ho', h1⟩ := bind_ok hr
    obtain ⟨o, ho, h2⟩ := bind_ok h1
    by_cases he : Γ a = Γ b
    · cases hm : Γ a <;> simp [hm] at h <;> rw [hm] at he <;> simp [step, ho, ho', ← he, hm, compareArr, toSpan, notConstexpr, Except.bind]
    · simp [he] at h2

theorem step_compile_ok (E : Elem V) (Γ : Nat → Mode) (σ : St V) (op : Op V) {p : St V × Seen V}
    (h : step .compile E Γ σ op = .ok p) : usable Γ op = true := by
  cases hu : usable Γ op with
  | true => rfl
  | false =>
    exfalso
    cases op <;> simp only [usable] at hu
    case dflt d => cases hm : Γ d <;> simp [hm, Mode.std] at hu; simp [step, hm, fresh, svector, notConstexpr, Except.bind] at h
    case ofInit d l =>
      cases hm : Γ d <;> simp [hm, Mode.direct] at hu <;>
        simp [step, hm, ofInit, fresh, svector, notConstexpr, Except.bind, Mode.max, Mode.dynamic, setSize] at h
    case ofRange d l => cases hm : Γ d <;> simp [hm, Mode.std] at hu; simp [step, hm, ofRange, fresh, svector, notConstexpr, Except.bind] at h
    case toStatic d s =>
      obtain ⟨o, ho, h2⟩ := bind_ok h
      cases hd : Γ d <;> rw [hd] at h2 <;> simp at h2
      cases hm : Γ s <;> simp [hm, Mode.direct] at hu <;> simp [hm, Mode.dynamic, toStatic, fresh, sizeOf, notConstexpr, Except.bind] at h2
    case ofStatic d s =>
      obtain ⟨o, ho, h2⟩ := bind_ok h
      cases hd : Γ s <;> rw [hd] at h2 <;> simp at h2
      cases hm : Γ d <;> simp [hm, Mode.direct] at hu <;> simp [hm, Mode.dynamic, ofStatic, fresh, sizeOf, setSize, svector, notConstexpr, Except.bind] at h2
    case copy d s =>
      obtain ⟨o, ho, h2⟩ := bind_ok h
      cases hm : Γ s <;> simp [hm, Mode.std] at hu
      by_cases he : Γ d = Γ s <;> simp [he, hm, svector, notConstexpr, Except.bind] at h2
      simp [hm] at he; simp [he] at h2
    case move d s =>
      obtain ⟨o, ho, h2⟩ := bind_ok h
      cases hm : Γ s <;> simp [hm, Mode.std] at hu
      by_cases he : Γ d = Γ s <;> simp [he, hm, svector, notConstexpr, Except.bind] at h2
      simp [hm] at he; simp [he] at h2
    case assign d s =>
      obtain ⟨o', ho', h1⟩ := bind_ok h
      obtain ⟨o, ho, h2⟩ := bind_ok h1
      cases hm : Γ s <;> simp [hm, Mode.std] at hu
      by_cases he : Γ d = Γ s <;> simp [he, hm, svector, notConstexpr, Except.bind] at h2
      simp [hm] at he; simp [he] at h2
    case moveAssign d s =>
      obtain ⟨o', ho', h1⟩ := bind_ok h
      obtain ⟨o, ho, h2⟩ := bind_ok h1
      cases hm : Γ s <;> simp [hm, Mode.std] at hu
      by_cases he : Γ d = Γ s <;> simp [he, hm, svector, notConstexpr, Except.bind] at h2
      simp [hm] at he; simp [he] at h2
    case swap a b =>
      obtain ⟨o', ho', h1⟩ := bind_ok h
      obtain ⟨o, ho, h2⟩ := bind_ok h1
      cases hm : Γ a <;> simp [hm, Mode.std] at hu
      by_cases he : Γ a = Γ b
      · rw [if_pos he, hm] at h2; simp [svector, notConstexpr, Except.bind] at h2
      · rw [if_neg he] at h2; simp at h2
    case destroy a =>
      obtain ⟨o, ho, h2⟩ := bind_ok h
      cases hm : Γ a <;> simp [hm, Mode.std] at hu
      simp [hm, svector, notConstexpr, Except.bind] at h2
    case size a =>
      obtain ⟨o, ho, h2⟩ := bind_ok h
      cases hm : Γ a <;> simp [hm, Mode.direct] at hu <;> simp [hm, sizeOf, notConstexpr, Except.bind] at h2
    case isEmpty a =>
      obtain ⟨o, ho, h2⟩ := bind_ok h
      cases hm : Γ a <;> simp [hm, Mode.direct] at hu <;> simp [hm, sizeOf, notConstexpr, Except.bind] at h2
    case begin a =>
      obtain ⟨o, ho, h2⟩ := bind_ok h
      cases hm : Γ a <;> simp [hm, Mode.std] at hu
      simp [hm, svector, notConstexpr, Except.bind] at h2
    case finish a =>
      obtain ⟨o, ho, h2⟩ := bind_ok h
      cases hm : Γ a <;> simp [hm, Mode.direct] at hu <;> simp [hm, sizeOf, svector, notConstexpr, Except.bind] at h2
    case span a =>
      obtain ⟨o, ho, h2⟩ := bind_ok h
      simp [toSpan, notConstexpr, Except.bind] at h2
    case read a i =>
      obtain ⟨o, ho, h2⟩ := bind_ok h
      cases hm : Γ a <;> simp [hm, Mode.std] at hu
      simp [hm, readAt, svector, notConstexpr, Except.bind] at h2
    case write a i v =>
      obtain ⟨o, ho, h2⟩ := bind_ok h
      cases hm : Γ a <;> simp [hm, Mode.std] at hu
      simp [hm, writeAt, svector, notConstexpr, Except.bind] at h2
    case compare a b =>
      obtain ⟨o', ho', h1⟩ := bind_ok h
      obtain ⟨o, ho, h2⟩ := bind_ok h1
      by_cases he : Γ a = Γ b
      · rw [if_pos he] at h2
        cases hm : Γ a <;> simp [hm] at hu <;> rw [hm] at h2 <;> simp [compareArr, toSpan, notConstexpr, Except.bind] at h2
      · rw [if_neg he] at h2; simp at h2

/-- **C93.** A program that uses `flex_array`s and can be evaluated at compile time does the same at run time. -/
theorem flex_array_agrees (E : Elem V) (Γ : Nat → Mode) (σ : St V) (prog : List (Op V)) (r : St V × List (Seen V))
    (h : exec .compile E Γ σ prog = .ok r) : exec .run E Γ σ prog = .ok r := by
  induction prog generalizing σ r with
  | nil => exact h
  | cons op ops ih =>
    obtain ⟨p, hp, h2⟩ := bind_ok h
    obtain ⟨q, hq, h3⟩ := bind_ok h2
    have hu := step_compile_ok E Γ σ op hp
    rw [step_usable E Γ σ op hu] at hp
    simp only [exec, hp, Except.bind, ih p.1 q hq]
    exact h3

/-- **C93.** A program that uses `flex_array`s and runs to its end can be evaluated at compile time exactly if each of its operations is usable there:
everything but the conversions to `std::span` for a static extent, the same without comparisons for a limited one, no size, end, initializer list or
conversion for vectors, and nothing for small-buffer vectors. Otherwise it is not a constant expression. -/
theorem flex_array_constant_iff (E : Elem V) (Γ : Nat → Mode) (σ : St V) (prog : List (Op V)) (r : St V × List (Seen V))
    (h : exec .run E Γ σ prog = .ok r) :
    ((∀ op ∈ prog, usable Γ op = true) → exec .compile E Γ σ prog = .ok r) ∧
    (¬ (∀ op ∈ prog, usable Γ op = true) → exec .compile E Γ σ prog = .error .notConstant) := by
  induction prog generalizing σ r with
  | nil => exact ⟨fun _ => h, fun hn => absurd (by simp) hn⟩
  | cons op ops ih =>
    obtain ⟨p, hp, h2⟩ := bind_ok h
    obtain ⟨q, hq, h3⟩ := bind_ok h2
    have := ih p.1 q hq
    cases hu : usable Γ op with
    | true =>
      have hc := (step_usable E Γ σ op hu).trans hp
      refine ⟨fun ha => ?_, fun hn => ?_⟩
      · simp only [exec, hc, Except.bind, this.1 fun o ho => ha o (List.mem_cons_of_mem _ ho)]
        exact h3
      · have hn' : ¬ (∀ o ∈ ops, usable Γ o = true) := fun ha => hn fun o ho => by
          rcases List.mem_cons.mp ho with rfl | ho
          · exact hu
          · exact ha o ho
        simp only [exec, hc, Except.bind, this.2 hn']
    | false =>
      refine ⟨fun ha => ?_, fun _ => ?_⟩
      · have := ha op List.mem_cons_self
        rw [hu] at this; cases this
      · simp only [exec, step_unusable E Γ σ op hu hp, Except.bind]

/-- The element type `int`: default initialization leaves no value. -/
def intElem : Elem Nat := ⟨none, 0, compare⟩

example : exec .run intElem (fun _ => .limited 3) (fun _ => none) [.ofInit 0 [1, 2], .copy 1 0, .read 1 0, .size 1] =
    .ok (upd (upd (fun _ => none) 0 (some ⟨[some 1, some 2, none], 2⟩)) 1 (some ⟨[some 1, some 2, none], 2⟩),
      [.nothing, .nothing, .value 1, .number 2]) := rfl

example : exec .compile intElem (fun _ => .limited 3) (fun _ => none) [.ofInit 0 [1, 2], .copy 1 0, .read 1 0, .size 1] =
    exec .run intElem (fun _ => .limited 3) (fun _ => none) [.ofInit 0 [1, 2], .copy 1 0, .read 1 0, .size 1] := rfl

/-- **C93.** What constant expressions can compute with: an array made from a list that fits is, during constant evaluation, a container with exactly
these elements; it can be copied, and element `i` and the size can be read. Default constructed, limited arrays are empty and static ones have all their elements. -/
theorem flex_array_constant_contents (E : Elem V) (m k : Nat) (l : List V) (h : l.length ≤ m) (i : Nat) (hi : i < l.length) (hk : k = l.length) :
    (∃ σ, exec .compile E (fun _ => .limited m) (fun _ => none) [.ofInit 0 l, .copy 1 0, .read 1 i, .size 1, .isEmpty 0] =
      .ok (σ, [.nothing, .nothing, .value l[i], .number l.length, .truth l.isEmpty])) ∧
    (∃ σ, exec .compile E (fun _ => .static k) (fun _ => none) [.ofInit 0 l, .copy 1 0, .read 1 i, .size 1, .isEmpty 0] =
      .ok (σ, [.nothing, .nothing, .value l[i], .number l.length, .truth l.isEmpty])) ∧
    (∃ σ, exec .compile E (fun _ => .vector) (fun _ => none) [.ofRange 0 l, .copy 1 0, .read 1 i] =
      .ok (σ, [.nothing, .nothing, .value l[i]])) ∧
    (∃ σ, exec .compile E (fun _ => .limited m) (fun _ => none) [.ofRange 0 l, .move 1 0, .read 1 i, .size 1] =
      .ok (σ, [.nothing, .nothing, .value l[i], .number l.length])) ∧
    (∃ σ, exec .compile E (fun _ => .static k) (fun _ => none) [.ofRange 0 l, .move 1 0, .read 1 i, .size 1] =
      .ok (σ, [.nothing, .nothing, .value l[i], .number l.length])) ∧
    (∃ σ, exec .compile E (fun _ => .limited m) (fun _ => none) [.dflt 0, .size 0] = .ok (σ, [.nothing, .number 0])) ∧
    (∃ σ, exec .compile E (fun _ => .static k) (fun _ => none) [.dflt 0, .size 0] = .ok (σ, [.nothing, .number k])) := by
  subst hk
  have hne' : (l.length == 0) = l.isEmpty := by cases l <;> simp_all
  refine ⟨?_, ?_, ?_, ?_, ?_, ?_, ?_⟩
  all_goals
    simp [exec, step, ofInit, ofRange, fresh, setSize, copyTo, Mode.max, Mode.dynamic, getVar, upd, svector, readAt, sizeOf, movedFrom, Except.bind, h,
      Nat.not_lt.mpr h, hi, List.getElem?_append, hne']

example : [4, 5].length ≤ 3 ∧ 1 < [4, 5].length := by decide

/-- **C93, refuted.** Not every program that only calls `constexpr` functions of `flex_array` and runs without problems is a constant expression:
comparing two arrays of a limited size, asking a vector for its size, making a vector from an initializer list, and making a span of a static array
are not. -/
theorem flex_array_constant_refuted :
    (∀ e, exec .run intElem (fun _ => .limited 2) (fun _ => none) [.ofInit 0 [1], .ofInit 1 [1], .compare 0 1] ≠ .error e) ∧
    exec .compile intElem (fun _ => .limited 2) (fun _ => none) [.ofInit 0 [1], .ofInit 1 [1], .compare 0 1] = .error .notConstant ∧
    (∀ e, exec .run intElem (fun _ => .vector) (fun _ => none) [.ofRange 0 [1], .size 0] ≠ .error e) ∧
    exec .compile intElem (fun _ => .vector) (fun _ => none) [.ofRange 0 [1], .size 0] = .error .notConstant ∧
    (∀ e, exec .run intElem (fun _ => .vector) (fun _ => none) [.ofInit 0 [1]] ≠ .error e) ∧
    exec .compile intElem (fun _ => .vector) (fun _ => none) [.ofInit 0 [1]] = .error .notConstant ∧
    (∀ e, exec .run intElem (fun _ => .static 1) (fun _ => none) [.ofInit 0 [1], .span 0] ≠ .error e) ∧
    exec .compile intElem (fun _ => .static 1) (fun _ => none) [.ofInit 0 [1], .span 0] = .error .notConstant := by
  refine ⟨?_, rfl, ?_, rfl, ?_, rfl, ?_, rfl⟩ <;> intro e h <;> cases h

/-! ### `variant2` -/

/-- Copying `other` into `self` starts no lifetime: the copy is trivial, there is nothing to copy, or both hold the same alternative. -/
def keeps (trivial : Bool) (self other : Var V) : Bool := trivial || other.isNone || self.map Prod.fst == other.map Prod.fst

/-- The operations on variants that can be part of a constant expression, depending on what the variants hold. -/
def vusable (t : Triv) (σ : VSt V) : VOp V → Bool
  | .make _ _ _ => false
  | .emplace _ _ _ => false
  | .copy _ s => t.copyCtor || (σ s).any Option.isNone
  | .move _ s => t.moveCtor || (σ s).any Option.isNone
  | .assign d s => d == s || keeps t.copyAssign (σ d).join (σ s).join
  | .moveAssign d s => d == s || keeps t.moveAssign (σ d).join (σ s).join
  | .assignValue d alt _ => (σ d).join.map Prod.fst == some alt
  | .swap a b => (t.moveCtor || (σ a).any Option.isNone) &&
      (a == b || (keeps t.moveAssign (σ a).join (σ b).join && keeps t.moveAssign (σ b).join (σ a).join))
  | _ => true

theorem getVariant_ok {σ : VSt V} {x : Nat} {v : Var V} (h : getVariant σ x = .ok v) : σ x = some v := by
  unfold getVariant at h
  split at h
  · rename_i a ha; rw [ha]; simpa using h
  · simp at h

theorem constructFrom_compile (trivial : Bool) (o : Var V) :
    constructFrom .compile trivial o = if trivial || o.isNone then .ok o else .error .notConstant := by
  cases trivial <;> cases o <;> simp [constructFrom, placementNew, Except.bind]

theorem constructFrom_run (trivial : Bool) (o : Var V) : constructFrom .run trivial o = .ok o := by
  cases trivial <;> cases o <;> simp [constructFrom, placementNew, Except.bind]

theorem assignFrom_run (trivial : Bool) (s o : Var V) : assignFrom .run trivial s o = .ok o := by
  cases trivial <;> rcases s with _ | ⟨_ | _, v⟩ <;> rcases o with _ | ⟨_ | _, u⟩ <;> simp [assignFrom, placementNew, Except.bind]

theorem assignFrom_compile (trivial : Bool) (s o : Var V) :
    assignFrom .compile trivial s o = if keeps trivial s o then .ok o else .error .notConstant := by
  cases trivial <;> rcases s with _ | ⟨_ | _, v⟩ <;> rcases o with _ | ⟨_ | _, u⟩ <;> simp [assignFrom, placementNew, Except.bind, keeps]

theorem vstep_compile [DecidableEq V] (t : Triv) (σ : VSt V) (op : VOp V) {p : VSt V × VSeen V} (h : vstep .run t σ op = .ok p) :
    vstep .compile t σ op = if vusable t σ op then .ok p else .error .notConstant := by
  cases op
  case make d alt v => simp [vstep, vusable, placementNew, Except.bind]
  case emplace d alt v =>
    obtain ⟨x, hx, h2⟩ := bind_ok h
    simp [vstep, hx, vusable, placementNew, Except.bind]
  case copy d s =>
    obtain ⟨o, ho, h2⟩ := bind_ok h
    have hs := getVariant_ok ho
    rw [constructFrom_run] at h2
    simp only [vstep, ho, vusable, constructFrom_compile, hs, Except.bind] at *
    cases t.copyCtor <;> cases o <;> simp at * <;> exact h2
  case move d s =>
    obtain ⟨o, ho, h2⟩ := bind_ok h
    have hs := getVariant_ok ho
    rw [constructFrom_run] at h2
    simp only [vstep, ho, vusable, constructFrom_compile, hs, Except.bind] at *
    cases t.moveCtor <;> cases o <;> simp at * <;> exact h2
  case assign d s =>
    obtain ⟨x, hx, h1⟩ := bind_ok h
    obtain ⟨o, ho, h2⟩ := bind_ok h1
    have hs := getVariant_ok ho
    have hd := getVariant_ok hx
    simp only [vstep, ho, hx, vusable, hs, hd, Except.bind, Option.join_some]
    by_cases e : d = s
    · simp only [beq_iff_eq, Bool.or_eq_true, e, true_or, if_true] at h2 ⊢; exact h2
    · rw [if_neg e, assignFrom_run] at h2
      rw [if_neg e, assignFrom_compile]
      have : (d == s) = false := by simpa using e
      rw [this, Bool.false_or]
      cases keeps t.copyAssign x o
      · rfl
      · exact h2
  case moveAssign d s =>
    obtain ⟨x, hx, h1⟩ := bind_ok h
    obtain ⟨o, ho, h2⟩ := bind_ok h1
    have hs := getVariant_ok ho
    have hd := getVariant_ok hx
    simp only [vstep, ho, hx, vusable, hs, hd, Except.bind, Option.join_some]
    by_cases e : d = s
    · simp only [beq_iff_eq, Bool.or_eq_true, e, true_or, if_true] at h2 ⊢; exact h2
    · rw [if_neg e, assignFrom_run] at h2
      rw [if_neg e, assignFrom_compile]
      have : (d == s) = false := by simpa using e
      rw [this, Bool.false_or]
      cases keeps t.moveAssign x o
      · rfl
      · exact h2
  case assignValue d alt v =>
    obtain ⟨x, hx, h2⟩ := bind_ok h
    have hd := getVariant_ok hx
    simp only [vstep, hx, vusable, hd, Except.bind, Option.join_some]
    rcases x with _ | ⟨a, u⟩
    · simp [assignVal, placementNew, Except.bind]
    · by_cases e : a = alt
      · simp only [assignVal, if_pos e] at h2 ⊢
        simp only [e, Option.map_some, beq_self_eq_true, if_true]
        rw [e] at h2; exact h2
      · simp [assignVal, e, placementNew, Except.bind]
  case swap a b =>
    obtain ⟨x, hx, h1⟩ := bind_ok h
    obtain ⟨y, hy, h2⟩ := bind_ok h1
    have ha := getVariant_ok hx
    have hb := getVariant_ok hy
    simp only [vstep, hx, hy, vusable, ha, hb, Except.bind, Option.join_some, Option.any_some]
    by_cases e : a = b
    · simp only [if_pos e] at h2 ⊢
      have : (a == b) = true := by simpa using e
      rw [this, Bool.true_or, Bool.and_true, constructFrom_compile]
      cases hm : t.moveAssign
      · rw [hm] at h2; simp at h2
      · rw [hm, constructFrom_run] at h2
        simp only [if_true] at h2 ⊢
        cases t.moveCtor || x.isNone
        · rfl
        · exact h2
    · rw [if_neg e] at h2 ⊢
      have : (a == b) = false := by simpa using e
      simp only [constructFrom_run, assignFrom_run, Except.bind] at h2
      rw [this, Bool.false_or, constructFrom_compile]
      cases t.moveCtor || x.isNone
      · rfl
      · simp only [if_true, Bool.true_and, assignFrom_compile]
        cases keeps t.moveAssign x y
        · rfl
        · cases keeps t.moveAssign y x
          · rfl
          · exact h2
  all_goals
    simp only [vusable, if_true]
    exact h

theorem vstep_agrees [DecidableEq V] (t : Triv) (σ : VSt V) (op : VOp V) {p : VSt V × VSeen V} (h : vstep .compile t σ op = .ok p) :
    vstep .run t σ op = .ok p := by
  cases op
  case make d alt v => simp [vstep, placementNew, Except.bind] at h
  case emplace d alt v =>
    obtain ⟨x, hx, h2⟩ := bind_ok h
    simp [placementNew, Except.bind] at h2
  case copy d s =>
    obtain ⟨o, ho, h2⟩ := bind_ok h
    simp only [vstep, ho, constructFrom_run, Except.bind]
    rw [constructFrom_compile] at h2
    split at h2
    · exact h2
    · cases h2
  case move d s =>
    obtain ⟨o, ho, h2⟩ := bind_ok h
    simp only [vstep, ho, constructFrom_run, Except.bind]
    rw [constructFrom_compile] at h2
    split at h2
    · exact h2
    · cases h2
  case assign d s =>
    obtain ⟨x, hx, h1⟩ := bind_ok h
    obtain ⟨o, ho, h2⟩ := bind_ok h1
    simp only [vstep, hx, ho, assignFrom_run, Except.bind]
    by_cases e : d = s
    · rw [if_pos e] at h2 ⊢; exact h2
    · rw [if_neg e, assignFrom_compile] at h2
      rw [if_neg e]
      cases hk : keeps t.copyAssign x o <;> rw [hk] at h2
      · cases h2
      · exact h2
  case moveAssign d s =>
    obtain ⟨x, hx, h1⟩ := bind_ok h
    obtain ⟨o, ho, h2⟩ := bind_ok h1
    simp only [vstep, hx, ho, assignFrom_run, Except.bind]
    by_cases e : d = s
    · rw [if_pos e] at h2 ⊢; exact h2
    · rw [if_neg e, assignFrom_compile] at h2
      rw [if_neg e]
      cases hk : keeps t.moveAssign x o <;> rw [hk] at h2
      · cases h2
      · exact h2
  case assignValue d alt v =>
    obtain ⟨x, hx, h2⟩ := bind_ok h
    simp only [vstep, hx, Except.bind]
    rcases x with _ | ⟨a, u⟩
    · simp [assignVal, placementNew, Except.bind] at h2
    · by_cases e : a = alt
      · simp only [assignVal, if_pos e] at h2 ⊢; exact h2
      · simp [assignVal, e, placementNew, Except.bind] at h2
  case swap a b =>
    obtain ⟨x, hx, h1⟩ := bind_ok h
    obtain ⟨y, hy, h2⟩ := bind_ok h1
    simp only [vstep, hx, hy, constructFrom_run, assignFrom_run, Except.bind]
    by_cases e : a = b
    · rw [if_pos e] at h2 ⊢
      cases hm : t.moveAssign <;> rw [hm] at h2
      · cases h2
      · simp only [if_true] at h2 ⊢
        obtain ⟨_, _, h3⟩ := bind_ok h2
        exact h3
    · rw [if_neg e] at h2 ⊢
      obtain ⟨tmp, ht, h3⟩ := bind_ok h2
      obtain ⟨x', hx', h4⟩ := bind_ok h3
      obtain ⟨y', hy', h5⟩ := bind_ok h4
      rw [constructFrom_compile] at ht
      rw [assignFrom_compile] at hx' hy'
      split at ht <;> cases ht
      split at hx' <;> cases hx'
      split at hy' <;> cases hy'
      exact h5
  all_goals exact h

/-- **C93.** A program that uses `variant2`s and can be evaluated at compile time does the same at run time. -/
theorem variant2_agrees [DecidableEq V] (t : Triv) (σ : VSt V) (prog : List (VOp V)) (r : VSt V × List (VSeen V))
    (h : vexec .compile t σ prog = .ok r) : vexec .run t σ prog = .ok r := by
  induction prog generalizing σ r with
  | nil => exact h
  | cons op ops ih =>
    obtain ⟨p, hp, h2⟩ := bind_ok h
    obtain ⟨q, hq, h3⟩ := bind_ok h2
    simp only [vexec, vstep_agrees t σ op hp, Except.bind, ih p.1 q hq]
    exact h3

example : vexec .compile ⟨false, false, false, false⟩ (upd (upd (fun _ => none) 0 (some (some (false, 1)))) 1 (some (some (false, 2))))
    [.assign 0 1, .get 0 false] =
    .ok (upd (upd (upd (fun _ => none) 0 (some (some (false, 1)))) 1 (some (some (false, 2)))) 0 (some (some (false, 2))),
      [.nothing, .value 2]) := rfl

/-- **C93.** An operation on given variants that works at run time can be evaluated at compile time exactly if it starts the lifetime of no
alternative: assignments that keep the alternative or are trivial, comparisons and accesses, but no construction and no `emplace`. -/
theorem variant2_step_constant_iff [DecidableEq V] (t : Triv) (σ : VSt V) (op : VOp V) (p : VSt V × VSeen V) (h : vstep .run t σ op = .ok p) :
    (vusable t σ op = true → vstep .compile t σ op = .ok p) ∧ (vusable t σ op = false → vstep .compile t σ op = .error .notConstant) := by
  rw [vstep_compile t σ op h]
  exact ⟨fun hu => by rw [hu]; rfl, fun hu => by rw [hu]; rfl⟩

example : vstep .run ⟨false, false, false, false⟩ (upd (upd (fun _ => none) 0 (some (some (false, 1)))) 1 (some (some (false, 2)))) (.assign 0 1) =
    .ok (upd (upd (upd (fun _ => none) 0 (some (some (false, 1)))) 1 (some (some (false, 2)))) 0 (some (some (false, 2))), .nothing) := rfl

/-- **C93, refuted.** No program that makes a `variant2` is a constant expression, whatever the alternatives are: whatever a program does first
with variants, it must make one, and this is never possible at compile time. -/
theorem variant2_constant_refuted [DecidableEq V] (t : Triv) (prog : List (VOp V)) (r : VSt V × List (VSeen V)) (hp : prog ≠ [])
    (h : vexec .run t (fun _ => none) prog = .ok r) : vexec .compile t (fun _ => none) prog = .error .notConstant := by
  cases prog with
  | nil => exact absurd rfl hp
  | cons op ops =>
    obtain ⟨p, hs, h2⟩ := bind_ok h
    have hc : vstep .compile t (fun _ => none) op = .error .notConstant := by
      cases op
      case make d alt v => rfl
      all_goals cases hs
    simp only [vexec, hc, Except.bind]

example : vexec .run ⟨true, true, true, true⟩ (fun _ => none) [.make 0 true 5, .copy 1 0, .get 1 true] =
    .ok (upd (upd (fun _ => none) 0 (some (some (true, 5)))) 1 (some (some (true, 5))), [.nothing, .nothing, .value 5]) := rfl

/-! ### Algorithms -/

/-- **C93.** `tuple_fold` folds the elements of the tuple at run time, and is a constant expression only for the empty tuple. -/
theorem tuple_fold_constant {α β : Type} (f : β → α → β) (init : β) (l : List α) :
    tupleFold .run f init l = .ok (l.foldl f init) ∧
    tupleFold .compile f init l = if l = [] then .ok init else .error .notConstant := by
  refine ⟨?_, ?_⟩
  · induction l generalizing init with
    | nil => rfl
    | cons x xs ih => simp [tupleFold, notConstexpr, Except.bind, ih]
  · cases l <;> simp [tupleFold, notConstexpr, Except.bind]

/-- **C93.** `tuple_for_each` and `integral_template_tuple::visit` call the function with each element at run time; at compile time they can only visit
the empty tuple. -/
theorem tuple_for_each_constant {α β : Type} (f : α → β) (l : List α) :
    tupleForEach .run f l = .ok (l.map f) ∧ tupleForEach .compile f l = if l = [] then .ok [] else .error .notConstant := by
  refine ⟨?_, ?_⟩
  · induction l with
    | nil => rfl
    | cons x xs ih => simp [tupleForEach, notConstexpr, Except.bind, ih]
  · cases l <;> simp [tupleForEach, notConstexpr, Except.bind]

/-- **C93.** `tuple_type_fold` and `tuple_type_for_each` are constant expressions for every tuple. -/
theorem tuple_types_constant {α β : Type} (w : When) (f : β → α → β) (init : β) (g : α → β) (l : List α) :
    tupleTypeFold w f init l = .ok (l.foldl f init) ∧ tupleTypeForEach w g l = .ok (l.map g) := by
  refine ⟨?_, ?_⟩
  · induction l generalizing init with
    | nil => rfl
    | cons x xs ih => simp [tupleTypeFold, ih]
  · induction l with
    | nil => rfl
    | cons x xs ih => simp [tupleTypeForEach, Except.bind, ih]

/-- **C93.** `all_equal` and the iteration over `unique` are never constant expressions, `all_distinct` is one only for empty ranges. -/
theorem sets_constant {α : Type} [DecidableEq α] (eq : α → α → Bool) (form : CallForm) (l : List α) :
    allEqual .compile form eq l = .error .notConstant ∧ unique .compile l = .error .notConstant ∧
    (allDistinct .compile form l = if l = [] then .ok true else .error .notConstant) ∧
    allDistinct .run form l = .ok (decide l.Nodup) ∧
    (∃ b, allEqual .run form eq l = .ok b) ∧ (∃ r, unique .run l = .ok r) := by
  refine ⟨rfl, rfl, ?_, ?_, ?_, ⟨_, rfl⟩⟩
  · cases l <;> rfl
  · cases l <;> simp [allDistinct, notConstexpr, Except.bind]
  · cases l <;> exact ⟨_, rfl⟩

theorem go_pairwise {α : Type} (lt : α → α → Bool) (trans : ∀ x y z, lt x y = true → lt y z = true → lt x z = true) (l : List α) :
    isSortedUnique.go lt l = true ↔ l.Pairwise fun x y => lt x y = true := by
  induction l with
  | nil => simp [isSortedUnique.go]
  | cons x xs ih =>
    cases xs with
    | nil => simp [isSortedUnique.go]
    | cons y ys =>
      simp only [isSortedUnique.go, Bool.and_eq_true, ih, List.pairwise_cons, List.mem_cons]
      constructor
      · rintro ⟨hxy, hy, hys⟩
        refine ⟨?_, hy, hys⟩
        rintro z (rfl | hz)
        · exact hxy
        · exact trans x y z hxy (hy z hz)
      · rintro ⟨hx, hy, hys⟩
        exact ⟨hx y (Or.inl rfl), hy, hys⟩

/-- **C93.** `is_sorted_unique(range)` is a constant expression that says whether the range is strictly increasing; `range | is_sorted_unique()` says the same
at run time but is never a constant expression. -/
theorem is_sorted_unique_constant {α : Type} (lt : α → α → Bool) (trans : ∀ x y z, lt x y = true → lt y z = true → lt x z = true) (l : List α) :
    (∃ b, (b = true ↔ l.Pairwise fun x y => lt x y = true) ∧ isSortedUnique .compile .direct lt l = .ok b ∧ isSortedUnique .run .direct lt l = .ok b ∧
      isSortedUnique .run .pipe lt l = .ok b) ∧
    isSortedUnique .compile .pipe lt l = .error .notConstant :=
  ⟨⟨isSortedUnique.go lt l, go_pairwise lt trans l, rfl, rfl, rfl⟩, rfl⟩

example : ∀ x y z : Nat, decide (x < y) = true → decide (y < z) = true → decide (x < z) = true := by
  intro x y z h1 h2; simp at *; omega

/-- **C93.** `range(start, stop, step)` is a constant expression unless the step is zero; the default constructed range, and ranges of iterators that
cannot be copied, are not. -/
theorem ranges_constant {α : Type} (start stop step : Int) (elems : List α) :
    (step ≠ 0 → mkRange .compile start stop step = .ok (start, stop, step)) ∧ mkRange .compile start stop 0 = .error .threw ∧
    mkRange .run start stop 0 = .error .threw ∧
    defaultRange .run = .ok (0, 0, 1) ∧ defaultRange .compile = .error .notConstant ∧
    nextToRange .compile true elems = .ok elems ∧ nextToRange .run false elems = .ok elems ∧
    nextToRange .compile false elems = .error .notConstant :=
  ⟨fun h => by simp [mkRange, h], rfl, rfl, rfl, rfl, rfl, rfl, rfl⟩

/-- **C93.** Of the structured binding of a `pointer_tag_pair` only the tag can be read at compile time; the subtuple of an
`integral_template_tuple` and a `limit_allocator` with a limit cannot be made there. -/
theorem others_constant {α : Type} (ptr tag off count limit : Nat) (l : List α) :
    pairGet .compile ptr tag true = .ok tag ∧ pairGet .compile ptr tag false = .error .notConstant ∧ pairGet .run ptr tag false = .ok ptr ∧
    intSubtuple .compile off count l = .error .notConstant ∧ mkLimit .compile limit = .error .notConstant :=
  ⟨rfl, rfl, rfl, rfl, rfl⟩

end Verif.Constexpr
