import Verif.Constexpr.Props

/-!
# C93: what the programs compute

The theorems of `Props` compare evaluation at compile time and at run time. Those of this file say what the evaluation gives, in terms of lists of elements
that are simply copied, cut and overwritten.
-/
namespace Verif.Constexpr

variable {V : Type}

/-! ### Specification: arrays are lists -/

/-- What a user expects of an operation: a new state and an observation, an exception, or nothing, because the call is outside of its contract. -/
inductive Want (α : Type) where
  | gives (r : α) | throws | outside
  deriving DecidableEq, Repr

/-- The arrays as lists of elements (`none`: without a value). -/
abbrev Lists (V : Type) := Nat → Option (List (Option V))

/-- Change one variable of a program. -/
def Lists.put (α : Lists V) (x : Nat) (l : Option (List (Option V))) : Lists V := fun y => if x = y then l else α y

/-- How many elements fit. -/
def room : Mode → Option Nat
  | .static n => some n
  | .limited m => some m
  | .vector => none
  | .sbo _ => none

/-- Whether the number of elements is part of the type. -/
def fixed : Mode → Option Nat
  | .static n => some n
  | _ => none

/-- The values of the elements, if all have one. -/
def values : List (Option V) → Option (List V)
  | [] => some []
  | none :: _ => none
  | some v :: l => (values l).map (v :: ·)

/-- The expected effect of each operation on lists. -/
def want (E : Elem V) (Γ : Nat → Mode) (α : Lists V) : Op V → Want (Lists V × Seen V)
  | .dflt d => .gives (α.put d (some (List.replicate ((fixed (Γ d)).getD 0) E.init)), .nothing)
  | .ofInit d l => match fixed (Γ d), room (Γ d) with
    | some n, _ => if l.length = n then .gives (α.put d (some (l.map some)), .nothing) else .throws
    | none, some m => if l.length ≤ m then .gives (α.put d (some (l.map some)), .nothing) else .throws
    | none, none => .gives (α.put d (some (l.map some)), .nothing)
  | .ofRange d l => match fixed (Γ d), room (Γ d) with
    | some n, _ => if l.length ≤ n then .gives (α.put d (some (l.map some ++ List.replicate (n - l.length) E.init)), .nothing) else .throws
    | none, some m => if l.length ≤ m then .gives (α.put d (some (l.map some)), .nothing) else .throws
    | none, none => .gives (α.put d (some (l.map some)), .nothing)
  | .toStatic d s => match α s, fixed (Γ d), fixed (Γ s) with
    | some l, some n, none => if l.length = n then .gives (α.put d (some l), .nothing) else .throws
    | _, _, _ => .outside
  | .ofStatic d s => match α s, fixed (Γ d), fixed (Γ s) with
    | some l, none, some _ => if (room (Γ d)).all (l.length ≤ ·) then .gives (α.put d (some l), .nothing) else .outside
    | _, _, _ => .outside
  | .copy d s => match α s with
    | some l => if Γ d = Γ s then .gives (α.put d (some l), .nothing) else .outside
    | none => .outside
  | .move d s => match α s with
    | some l => if Γ d = Γ s ∧ d ≠ s then .gives ((α.put d (some l)).put s (some (if room (Γ s) = none then [] else l)), .nothing) else .outside
    | none => .outside
  | .assign d s => match α d, α s with
    | some _, some l => if Γ d = Γ s then .gives (α.put d (some l), .nothing) else .outside
    | _, _ => .outside
  | .moveAssign d s => match α d, α s with
    | some _, some l => if Γ d = Γ s ∧ d ≠ s then .gives ((α.put d (some l)).put s (some (if room (Γ s) = none then [] else l)), .nothing) else .outside
    | _, _ => .outside
  | .swap a b => match α a, α b with
    | some x, some y => if Γ a = Γ b then .gives ((α.put a (some y)).put b (some x), .nothing) else .outside
    | _, _ => .outside
  | .destroy a => match α a with
    | some _ => .gives (α.put a none, .nothing)
    | none => .outside
  | .size a => match α a with
    | some l => .gives (α, .number l.length)
    | none => .outside
  | .isEmpty a => match α a with
    | some l => .gives (α, .truth l.isEmpty)
    | none => .outside
  | .begin a => match α a with
    | some _ => .gives (α, .nothing)
    | none => .outside
  | .finish a => match α a with
    | some _ => .gives (α, .nothing)
    | none => .outside
  | .span a => match α a with
    | some l => .gives (α, .elems l)
    | none => .outside
  | .read a i => match (α a).bind (·[i]?) with
    | some (some v) => .gives (α, .value v)
    | _ => .outside
  | .write a i v => match α a with
    | some l => if i < l.length then .gives (α.put a (some (l.set i (some v))), .nothing) else .outside
    | none => .outside
  | .compare a b => match (α a).bind values, (α b).bind values with
    | some xs, some ys => if Γ a = Γ b then .gives (α, .order (List.compareLex E.cmp xs ys)) else .outside
    | _, _ => .outside

/-- The expected result of a program. -/
def wanted (E : Elem V) (Γ : Nat → Mode) : Lists V → List (Op V) → Want (Lists V × List (Seen V))
  | α, [] => .gives (α, [])
  | α, op :: ops => match want E Γ α op with
    | .gives (β, s) => match wanted E Γ β ops with
      | .gives (γ, ss) => .gives (γ, s :: ss)
      | .throws => .throws
      | .outside => .outside
    | .throws => .throws
    | .outside => .outside

/-! ### Representation -/

/-- How a list of elements is stored in each mode. -/
def Stores (m : Mode) (a : Arr V) (l : List (Option V)) : Prop := match m with
  | .static n => a.cells = l ∧ l.length = n ∧ a.size = n
  | .limited k => a.cells.length = k ∧ a.size = l.length ∧ a.cells.take a.size = l
  | .vector => a.cells = l ∧ a.size = l.length
  | .sbo _ => a.cells = l ∧ a.size = l.length

/-- Each variable stores its list. -/
def Rep (Γ : Nat → Mode) (σ : St V) (α : Lists V) : Prop := ∀ x, match σ x, α x with
  | some a, some l => Stores (Γ x) a l
  | none, none => True
  | _, _ => False

theorem Rep.get {Γ : Nat → Mode} {σ : St V} {α : Lists V} (h : Rep Γ σ α) {x : Nat} {l : List (Option V)} (hx : α x = some l) :
    ∃ a, getVar σ x = .ok a ∧ Stores (Γ x) a l := by
  have := h x
  rw [hx] at this
  cases hs : σ x with
  | none => rw [hs] at this; exact this.elim
  | some a => rw [hs] at this; exact ⟨a, by simp [getVar, hs], this⟩

theorem Rep.put {Γ : Nat → Mode} {σ : St V} {α : Lists V} (h : Rep Γ σ α) {x : Nat} {a : Arr V} {l : List (Option V)} (hx : Stores (Γ x) a l) :
    Rep Γ (upd σ x (some a)) (α.put x (some l)) := by
  intro y
  by_cases hy : y = x
  · subst hy; simp [upd, Lists.put, hx]
  · have := h y
    simpa [upd, Lists.put, hy, Ne.symm hy] using this

theorem Rep.del {Γ : Nat → Mode} {σ : St V} {α : Lists V} (h : Rep Γ σ α) (x : Nat) : Rep Γ (upd σ x none) (α.put x none) := by
  intro y
  by_cases hy : y = x
  · subst hy; simp [upd, Lists.put]
  · have := h y
    simpa [upd, Lists.put, hy, Ne.symm hy] using this

theorem upd_comm {β : Type} (f : Nat → β) {i j : Nat} (h : i ≠ j) (x y : β) : upd (upd f i x) j y = upd (upd f j y) i x := by
  funext k
  by_cases h1 : k = i <;> by_cases h2 : k = j <;> simp_all [upd]

theorem lex_compare (cmp : V → V → Ordering) : ∀ (l k : List (Option V)) (xs ys : List V), values l = some xs → values k = some ys →
    lex cmp l k = .ok (List.compareLex cmp xs ys)
  | [], [], xs, ys, hl, hk => by
    simp [values] at hl hk; subst hl hk; simp [lex, List.compareLex]
  | [], none :: k, xs, ys, hl, hk => by simp [values] at hk
  | [], some y :: k, xs, ys, hl, hk => by
    simp [values] at hl hk; obtain ⟨ys', _, rfl⟩ := hk; subst hl; simp [lex, List.compareLex]
  | none :: l, k, xs, ys, hl, hk => by simp [values] at hl
  | some x :: l, none :: k, xs, ys, hl, hk => by simp [values] at hk
  | some x :: l, [], xs, ys, hl, hk => by
    simp [values] at hl hk; obtain ⟨xs', _, rfl⟩ := hl; subst hk; simp [lex, List.compareLex]
  | some x :: l, some y :: k, xs, ys, hl, hk => by
    simp [values] at hl hk
    obtain ⟨xs', hl, rfl⟩ := hl
    obtain ⟨ys', hk, rfl⟩ := hk
    simp only [lex, List.compareLex]
    cases cmp x y <;> simp [lex_compare cmp l k xs' ys' hl hk]

theorem Stores.live {m : Mode} {a : Arr V} {l : List (Option V)} (h : Stores m a l) : a.size = l.length ∧ a.cells.take a.size = l := by
  cases m with
  | static n => obtain ⟨h1, h2, h3⟩ := h; subst h1; subst h2; exact ⟨h3, by rw [h3]; simp⟩
  | limited k => exact ⟨h.2.1, h.2.2⟩
  | vector => obtain ⟨h1, h2⟩ := h; exact ⟨h2, by rw [h1, h2]; simp⟩
  | sbo n => obtain ⟨h1, h2⟩ := h; exact ⟨h2, by rw [h1, h2]; simp⟩

theorem Stores.le {m : Mode} {a : Arr V} {l : List (Option V)} (h : Stores m a l) : l.length ≤ a.cells.length := by
  have := h.live.2
  rw [← this]; simp; omega

theorem Stores.getElem {m : Mode} {a : Arr V} {l : List (Option V)} (h : Stores m a l) {i : Nat} (hi : i < l.length) : a.cells[i]? = l[i]? := by
  obtain ⟨h1, h2⟩ := h.live
  rw [← h2, List.getElem?_take, if_pos (by omega)]

theorem Stores.write {m : Mode} {a : Arr V} {l : List (Option V)} (h : Stores m a l) (i : Nat) (v : Option V) :
    Stores m { a with cells := a.cells.set i v } (l.set i v) := by
  cases m with
  | static n => obtain ⟨h1, h2, h3⟩ := h; simp [Stores, h1, h2, h3]
  | limited k => obtain ⟨h1, h2, h3⟩ := h; refine ⟨by simp [h1], by simp [h2], ?_⟩; rw [← h3, List.take_set]
  | vector => obtain ⟨h1, h2⟩ := h; simp [Stores, h1, h2]
  | sbo n => obtain ⟨h1, h2⟩ := h; simp [Stores, h1, h2]

theorem svector_run (m : Mode) : svector .run m = .ok () := by cases m <;> rfl

theorem sizeOf_run {m : Mode} {a : Arr V} {l : List (Option V)} (h : Stores m a l) : sizeOf .run m a = .ok l.length := by
  cases m with
  | static n => simp [sizeOf, h.2.1]
  | limited k => simp [sizeOf, h.2.1]
  | vector => simp [sizeOf, notConstexpr, Except.bind, h.2]
  | sbo n => simp [sizeOf, notConstexpr, Except.bind, h.2]

theorem fresh_run (E : Elem V) (m : Mode) : ∃ a, fresh .run E.init m = .ok a ∧ Stores m a (List.replicate ((fixed m).getD 0) E.init) := by
  cases m with
  | static n => exact ⟨_, rfl, by simp [Stores, fixed]⟩
  | limited k => exact ⟨_, rfl, by simp [Stores, fixed]⟩
  | vector => exact ⟨_, rfl, by simp [Stores, fixed]⟩
  | sbo n => exact ⟨_, rfl, by simp [Stores, fixed]⟩

theorem movedFrom_run {m : Mode} {a : Arr V} {l : List (Option V)} (h : Stores m a l) : Stores m (movedFrom m a) (if room m = none then [] else l) := by
  cases m <;> simp [movedFrom, room, Stores] at * <;> exact h

theorem ofInit_run (E : Elem V) (m : Mode) (l : List V) :
    (match fixed m, room m with
    | some n, _ => l.length = n
    | none, some k => l.length ≤ k
    | none, none => True) →
    ∃ a, ofInit .run E.init E.zero m l = .ok a ∧ Stores m a (l.map some) := by
  cases m with
  | static n => intro h; simp [fixed] at h; subst h; simp [ofInit, fresh, Mode.max, Mode.dynamic, Except.bind, copyTo, Stores]
  | limited k =>
    intro h; simp [fixed, room] at h
    simp [ofInit, fresh, Mode.max, Mode.dynamic, Except.bind, copyTo, Stores, h, Nat.not_lt.mpr h, setSize]
  | vector => simp [ofInit, fresh, Mode.max, Mode.dynamic, Except.bind, copyTo, Stores, setSize, notConstexpr, resized]
  | sbo n => simp [ofInit, fresh, Mode.max, Mode.dynamic, Except.bind, copyTo, Stores, setSize, notConstexpr, resized, svector]

theorem ofRange_run (E : Elem V) (m : Mode) (l : List V) (h : (room m).all (l.length ≤ ·) = true) :
    ∃ a, ofRange .run E.init E.zero m l = .ok a ∧ Stores m a (l.map some ++ List.replicate ((fixed m).getD l.length - l.length) E.init) := by
  cases m with
  | static n => simp [room] at h; simp [ofRange, fresh, Mode.max, Except.bind, Stores, fixed, Nat.not_lt.mpr h]; omega
  | limited k =>
    simp [room] at h
    simp [ofRange, fresh, Mode.max, Except.bind, Stores, h, Nat.not_lt.mpr h, setSize, fixed]
  | vector => simp [ofRange, fresh, Mode.max, Except.bind, Stores, fixed]
  | sbo n => simp [ofRange, fresh, Mode.max, Except.bind, Stores, fixed, svector, notConstexpr]

theorem toStatic_run (E : Elem V) (n : Nat) {m : Mode} {o : Arr V} {l : List (Option V)} (h : Stores m o l) (hn : l.length = n) :
    ∃ a, toStatic .run E.init n m o = .ok a ∧ Stores (.static n) a l := by
  have hl := h.live
  simp [toStatic, fresh, Except.bind, sizeOf_run h, hn, copyTo]
  have : List.take n o.cells = l := by rw [← hn, ← hl.1]; exact hl.2
  have hle := h.le
  rw [this, Nat.min_eq_left (by omega)]
  simp [hn, Stores]

theorem ofStatic_run (E : Elem V) (n : Nat) {m : Mode} (hm : fixed m = none) {o : Arr V} {l : List (Option V)} (h : Stores (.static n) o l)
    (hr : (room m).all (l.length ≤ ·) = true) : ∃ a, ofStatic .run E.init E.zero m n o = .ok a ∧ Stores m a l := by
  obtain ⟨h1, h2, h3⟩ := h
  subst h1
  cases m with
  | static k => simp [fixed] at hm
  | limited k =>
    simp [room] at hr
    simp [ofStatic, fresh, Except.bind, sizeOf, setSize, ← h2, hr, copyTo, Stores]
  | vector => simp [ofStatic, fresh, Except.bind, sizeOf, setSize, ← h2, copyTo, Stores, notConstexpr, resized]
  | sbo k => simp [ofStatic, fresh, Except.bind, sizeOf, setSize, ← h2, copyTo, Stores, notConstexpr, resized, svector]

theorem compare_run (E : Elem V) {m : Mode} {a b : Arr V} {l k : List (Option V)} (ha : Stores m a l) (hb : Stores m b k) {xs ys : List V}
    (hx : values l = some xs) (hy : values k = some ys) : compareArr .run E.cmp m a b = .ok (List.compareLex E.cmp xs ys) := by
  have h1 := ha.live.2
  have h2 := hb.live.2
  cases m with
  | static n => simp only [compareArr]; rw [ha.1, hb.1]; exact lex_compare E.cmp l k xs ys hx hy
  | vector => simp only [compareArr]; rw [ha.1, hb.1]; exact lex_compare E.cmp l k xs ys hx hy
  | limited n => simp only [compareArr, toSpan, notConstexpr, Except.bind, h1, h2]; exact lex_compare E.cmp l k xs ys hx hy
  | sbo n => simp only [compareArr, toSpan, notConstexpr, Except.bind, h1, h2]; exact lex_compare E.cmp l k xs ys hx hy

/-- **C93.** At run time every operation of `flex_array` has the expected effect on the elements of the arrays, shows what is expected, leaves the other arrays
unchanged, and throws when it is expected to. -/
theorem flex_array_step_value (E : Elem V) (Γ : Nat → Mode) (σ : St V) (α : Lists V) (h : Rep Γ σ α) (op : Op V) :
    (∀ β s, want E Γ α op = .gives (β, s) → ∃ τ, step .run E Γ σ op = .ok (τ, s) ∧ Rep Γ τ β) ∧
    (want E Γ α op = .throws → step .run E Γ σ op = .error .threw) := by
  cases op with
  | dflt d =>
    obtain ⟨a, ha, hs⟩ := fresh_run E (Γ d)
    refine ⟨fun β s hw => ?_, fun hw => by simp [want] at hw⟩
    simp [want] at hw
    obtain ⟨rfl, rfl⟩ := hw
    exact ⟨_, by simp [step, ha, Except.bind] <;> rfl, h.put hs⟩
  | ofInit d l =>
    have hi := ofInit_run E (Γ d) l
    refine ⟨fun β s hw => ?_, fun hw => ?_⟩
    · have : ∃ a, ofInit .run E.init E.zero (Γ d) l = .ok a ∧ Stores (Γ d) a (l.map some) ∧ β = α.put d (some (l.map some)) ∧ s = .nothing := by
        simp only [want] at hw
        cases hm : Γ d <;> simp only [hm, fixed, room] at hw hi <;> (try split at hw) <;> simp at hw
        all_goals
          obtain ⟨rfl, rfl⟩ := hw
          obtain ⟨a, h1, h2⟩ := hi (by first | assumption | trivial)
          exact ⟨a, h1, h2, rfl, rfl⟩
      obtain ⟨a, h1, h2, rfl, rfl⟩ := this
      exact ⟨_, by simp [step, h1, Except.bind] <;> rfl, h.put h2⟩
    · simp only [want] at hw
      cases hm : Γ d <;> simp only [hm, fixed, room] at hw <;> (try split at hw) <;> simp at hw
      · rename_i n hn
        by_cases hlt : n < l.length
        · simp [step, hm, ofInit, fresh, Except.bind, Mode.max, hlt]
        · simp [step, hm, ofInit, fresh, Except.bind, Mode.max, hlt, Mode.dynamic, hn]
      · rename_i n hn
        simp [step, hm, ofInit, fresh, Except.bind, Mode.max, Nat.lt_of_not_le hn]
  | ofRange d l =>
    refine ⟨fun β s hw => ?_, fun hw => ?_⟩
    · have hi := ofRange_run E (Γ d) l
      have : ∃ a r, ofRange .run E.init E.zero (Γ d) l = .ok a ∧ Stores (Γ d) a r ∧ β = α.put d (some r) ∧ s = .nothing := by
        simp only [want] at hw
        cases hm : Γ d <;> simp only [hm, fixed, room] at hw hi <;> (try split at hw) <;> simp at hw
        all_goals
          obtain ⟨rfl, rfl⟩ := hw
          obtain ⟨a, h1, h2⟩ := hi (by simp; try assumption)
          exact ⟨a, _, h1, by simpa using h2, rfl, rfl⟩
      obtain ⟨a, r, h1, h2, rfl, rfl⟩ := this
      exact ⟨_, by simp [step, h1, Except.bind] <;> rfl, h.put h2⟩
    · simp only [want] at hw
      cases hm : Γ d <;> simp only [hm, fixed, room] at hw <;> (try split at hw) <;> simp at hw
      all_goals
        rename_i n hn
        simp [step, hm, ofRange, fresh, Except.bind, Mode.max, Nat.lt_of_not_le hn]
  | toStatic d s =>
    cases hs : α s with
    | none => simp [want, hs]
    | some l =>
      obtain ⟨o, ho, hst⟩ := h.get hs
      cases hd : Γ d with
      | static n =>
        have hdyn : fixed (Γ s) = none → (Γ s).dynamic = true := by cases Γ s <;> simp [fixed, Mode.dynamic]
        have hfd : fixed (Γ d) = some n := by rw [hd]; rfl
        cases hfs : fixed (Γ s) with
        | some k => simp [want, hs, hfd, hfs]
        | none =>
          by_cases hn : l.length = n
          · obtain ⟨a, h1, h2⟩ := toStatic_run E n hst hn
            refine ⟨fun β s' hw => ?_, fun hw => ?_⟩
            · simp [want, hs, hfd, hfs, hn] at hw
              obtain ⟨rfl, rfl⟩ := hw
              exact ⟨_, by simp [step, ho, hd, hdyn hfs, h1, Except.bind] <;> rfl, h.put (by rw [hd]; exact h2)⟩
            · simp [want, hs, hfd, hfs, hn] at hw
          · refine ⟨fun β s' hw => ?_, fun hw => ?_⟩
            · simp [want, hs, hfd, hfs, hn] at hw
            · simp [step, ho, hd, hdyn hfs, toStatic, fresh, sizeOf_run hst, hn, Except.bind]
      | limited k => simp [want, hs, hd, fixed]
      | vector => simp [want, hs, hd, fixed]
      | sbo k => simp [want, hs, hd, fixed]
  | ofStatic d s =>
    cases hs : α s with
    | none => simp [want, hs]
    | some l =>
      obtain ⟨o, ho, hst⟩ := h.get hs
      cases hfs : Γ s with
      | static n =>
        have hfs' : fixed (Γ s) = some n := by rw [hfs]; rfl
        cases hfd : fixed (Γ d) with
        | some k => simp [want, hs, hfd]
        | none =>
          have hdyn : (Γ d).dynamic = true := by revert hfd; cases Γ d <;> simp [fixed, Mode.dynamic]
          refine ⟨fun β s' hw => ?_, fun hw => ?_⟩
          · simp only [want, hs, hfd, hfs'] at hw
            split at hw
            · rename_i hr
              simp at hw
              obtain ⟨rfl, rfl⟩ := hw
              rw [hfs] at hst
              obtain ⟨a, h1, h2⟩ := ofStatic_run E n hfd hst hr
              exact ⟨_, by simp [step, ho, hfs, hdyn, h1, Except.bind] <;> rfl, h.put h2⟩
            · simp at hw
          · simp only [want, hs, hfd, hfs'] at hw
            split at hw <;> simp at hw
      | limited k => cases hd : fixed (Γ d) <;> simp [want, hs, hfs, hd, fixed]
      | vector => cases hd : fixed (Γ d) <;> simp [want, hs, hfs, hd, fixed]
      | sbo k => cases hd : fixed (Γ d) <;> simp [want, hs, hfs, hd, fixed]
  | copy d s =>
    cases hs : α s with
    | none => simp [want, hs]
    | some l =>
      obtain ⟨o, ho, hst⟩ := h.get hs
      by_cases he : Γ d = Γ s
      · refine ⟨fun β s' hw => ?_, fun hw => by simp [want, hs, he] at hw⟩
        simp [want, hs, he] at hw
        obtain ⟨rfl, rfl⟩ := hw
        exact ⟨_, by simp [step, ho, he, svector_run, Except.bind] <;> rfl, h.put (by rw [he]; exact hst)⟩
      · simp [want, hs, he]
  | assign d s =>
    cases hd : α d with
    | none => simp [want, hd]
    | some l' =>
      cases hs : α s with
      | none => simp [want, hs, hd]
      | some l =>
        obtain ⟨o', ho', _⟩ := h.get hd
        obtain ⟨o, ho, hst⟩ := h.get hs
        by_cases he : Γ d = Γ s
        · refine ⟨fun β s' hw => ?_, fun hw => by simp [want, hs, hd, he] at hw⟩
          simp [want, hs, hd, he] at hw
          obtain ⟨rfl, rfl⟩ := hw
          exact ⟨_, by simp [step, ho, ho', he, svector_run, Except.bind] <;> rfl, h.put (by rw [he]; exact hst)⟩
        · simp [want, hs, hd, he]
  | move d s =>
    cases hs : α s with
    | none => simp [want, hs]
    | some l =>
      obtain ⟨o, ho, hst⟩ := h.get hs
      by_cases he : Γ d = Γ s ∧ d ≠ s
      · refine ⟨fun β s' hw => ?_, fun hw => by simp [want, hs, he] at hw⟩
        simp [want, hs, he] at hw
        obtain ⟨rfl, rfl⟩ := hw
        refine ⟨_, by simp [step, ho, he.1, svector_run, Except.bind] <;> rfl, ?_⟩
        rw [upd_comm _ he.2.symm]
        exact (h.put (by rw [he.1]; exact hst)).put (movedFrom_run hst)
      · simp only [want, hs, if_neg he]; simp
  | moveAssign d s =>
    cases hd : α d with
    | none => simp [want, hd]
    | some l' =>
      cases hs : α s with
      | none => simp [want, hs, hd]
      | some l =>
        obtain ⟨o', ho', _⟩ := h.get hd
        obtain ⟨o, ho, hst⟩ := h.get hs
        by_cases he : Γ d = Γ s ∧ d ≠ s
        · refine ⟨fun β s' hw => ?_, fun hw => by simp [want, hs, hd, he] at hw⟩
          simp [want, hs, hd, he] at hw
          obtain ⟨rfl, rfl⟩ := hw
          refine ⟨_, by simp [step, ho, ho', he.1, svector_run, Except.bind] <;> rfl, ?_⟩
          rw [upd_comm _ he.2.symm]
          exact (h.put (by rw [he.1]; exact hst)).put (movedFrom_run hst)
        · simp only [want, hs, hd, if_neg he]; simp
  | swap a b =>
    cases ha : α a with
    | none => simp [want, ha]
    | some x =>
      cases hb : α b with
      | none => simp [want, ha, hb]
      | some y =>
        obtain ⟨o, ho, hx⟩ := h.get ha
        obtain ⟨o', ho', hy⟩ := h.get hb
        by_cases he : Γ a = Γ b
        · refine ⟨fun β s' hw => ?_, fun hw => by simp [want, ha, hb, he] at hw⟩
          simp [want, ha, hb, he] at hw
          obtain ⟨rfl, rfl⟩ := hw
          exact ⟨_, by simp [step, ho, ho', he, svector_run, Except.bind] <;> rfl, (h.put (by rw [he]; exact hy)).put (by rw [← he]; exact hx)⟩
        · simp [want, ha, hb, he]
  | destroy a =>
    cases ha : α a with
    | none => simp [want, ha]
    | some x =>
      obtain ⟨o, ho, hx⟩ := h.get ha
      refine ⟨fun β s' hw => ?_, fun hw => by simp [want, ha] at hw⟩
      simp [want, ha] at hw
      obtain ⟨rfl, rfl⟩ := hw
      exact ⟨_, by simp [step, ho, svector_run, Except.bind] <;> rfl, h.del a⟩
  | size a =>
    cases ha : α a with
    | none => simp [want, ha]
    | some x =>
      obtain ⟨o, ho, hx⟩ := h.get ha
      refine ⟨fun β s' hw => ?_, fun hw => by simp [want, ha] at hw⟩
      simp [want, ha] at hw
      obtain ⟨rfl, rfl⟩ := hw
      exact ⟨_, by simp [step, ho, sizeOf_run hx, Except.bind], h⟩
  | isEmpty a =>
    cases ha : α a with
    | none => simp [want, ha]
    | some x =>
      obtain ⟨o, ho, hx⟩ := h.get ha
      refine ⟨fun β s' hw => ?_, fun hw => by simp [want, ha] at hw⟩
      simp [want, ha] at hw
      obtain ⟨rfl, rfl⟩ := hw
      exact ⟨_, by simp [step, ho, sizeOf_run hx, Except.bind]; cases x <;> simp, h⟩
  | «begin» a =>
    cases ha : α a with
    | none => simp [want, ha]
    | some x =>
      obtain ⟨o, ho, hx⟩ := h.get ha
      refine ⟨fun β s' hw => ?_, fun hw => by simp [want, ha] at hw⟩
      simp [want, ha] at hw
      obtain ⟨rfl, rfl⟩ := hw
      exact ⟨_, by simp [step, ho, svector_run, Except.bind], h⟩
  | finish a =>
    cases ha : α a with
    | none => simp [want, ha]
    | some x =>
      obtain ⟨o, ho, hx⟩ := h.get ha
      refine ⟨fun β s' hw => ?_, fun hw => by simp [want, ha] at hw⟩
      simp [want, ha] at hw
      obtain ⟨rfl, rfl⟩ := hw
      exact ⟨_, by simp [step, ho, svector_run, sizeOf_run hx, Except.bind], h⟩
  | span a =>
    cases ha : α a with
    | none => simp [want, ha]
    | some x =>
      obtain ⟨o, ho, hx⟩ := h.get ha
      refine ⟨fun β s' hw => ?_, fun hw => by simp [want, ha] at hw⟩
      simp [want, ha] at hw
      obtain ⟨rfl, rfl⟩ := hw
      exact ⟨_, by simp [step, ho, toSpan, notConstexpr, hx.live.2, Except.bind], h⟩
  | read a i =>
    cases ha : α a with
    | none => simp [want, ha]
    | some x =>
      obtain ⟨o, ho, hx⟩ := h.get ha
      cases hv : x[i]? with
      | none => simp [want, ha, hv]
      | some v? =>
        cases v? with
        | none => simp [want, ha, hv]
        | some v =>
          refine ⟨fun β s' hw => ?_, fun hw => by simp [want, ha, hv] at hw⟩
          simp [want, ha, hv] at hw
          obtain ⟨rfl, rfl⟩ := hw
          have hi : i < x.length := by
            rcases Nat.lt_or_ge i x.length with hi | hi
            · exact hi
            · rw [List.getElem?_eq_none hi] at hv; simp at hv
          exact ⟨_, by simp [step, ho, readAt, svector_run, hx.getElem hi, hv, Except.bind], h⟩
  | write a i v =>
    cases ha : α a with
    | none => simp [want, ha]
    | some x =>
      obtain ⟨o, ho, hx⟩ := h.get ha
      by_cases hi : i < x.length
      · refine ⟨fun β s' hw => ?_, fun hw => by simp [want, ha, hi] at hw⟩
        simp [want, ha, hi] at hw
        obtain ⟨rfl, rfl⟩ := hw
        have hc : i < o.cells.length := by have := hx.le; omega
        exact ⟨_, by simp [step, ho, writeAt, svector_run, hc, Except.bind] <;> rfl, h.put (hx.write i (some v))⟩
      · simp [want, ha, hi]
  | compare a b =>
    cases ha : α a with
    | none => simp [want, ha]
    | some x =>
      cases hb : α b with
      | none => cases hvx : values x <;> simp [want, ha, hb, hvx]
      | some y =>
        obtain ⟨o, ho, hx⟩ := h.get ha
        obtain ⟨o', ho', hy⟩ := h.get hb
        cases hvx : values x with
        | none => simp [want, ha, hb, hvx]
        | some xs =>
          cases hvy : values y with
          | none => simp [want, ha, hb, hvx, hvy]
          | some ys =>
            by_cases he : Γ a = Γ b
            · refine ⟨fun β s' hw => ?_, fun hw => by simp [want, ha, hb, he, hvx, hvy] at hw⟩
              simp [want, ha, hb, he, hvx, hvy] at hw
              obtain ⟨rfl, rfl⟩ := hw
              exact ⟨_, by simp [step, ho, ho', he, compare_run E (he ▸ hx) hy hvx hvy, Except.bind], h⟩
            · simp [want, ha, hb, he, hvx, hvy]

/-- **C93.** At run time a program that uses `flex_array`s computes what the same program computes with lists, operation by operation, and throws where it
is expected to. -/
theorem flex_array_run_value (E : Elem V) (Γ : Nat → Mode) (σ : St V) (α : Lists V) (h : Rep Γ σ α) (prog : List (Op V)) :
    (∀ β s, wanted E Γ α prog = .gives (β, s) → ∃ τ, exec .run E Γ σ prog = .ok (τ, s) ∧ Rep Γ τ β) ∧
    (wanted E Γ α prog = .throws → exec .run E Γ σ prog = .error .threw) := by
  induction prog generalizing σ α with
  | nil =>
    refine ⟨fun β s hw => ?_, fun hw => by simp [wanted] at hw⟩
    simp [wanted] at hw
    obtain ⟨rfl, rfl⟩ := hw
    exact ⟨σ, rfl, h⟩
  | cons op ops ih =>
    obtain ⟨h1, h2⟩ := flex_array_step_value E Γ σ α h op
    cases hw1 : want E Γ α op with
    | outside => simp [wanted, hw1]
    | throws =>
      refine ⟨fun β s hw => by simp [wanted, hw1] at hw, fun _ => ?_⟩
      simp [exec, h2 hw1, Except.bind]
    | gives p =>
      obtain ⟨β1, s1⟩ := p
      obtain ⟨τ1, ht1, hr1⟩ := h1 β1 s1 hw1
      obtain ⟨i1, i2⟩ := ih τ1 β1 hr1
      cases hw2 : wanted E Γ β1 ops with
      | outside => simp [wanted, hw1, hw2]
      | throws =>
        refine ⟨fun β s hw => by simp [wanted, hw1, hw2] at hw, fun _ => ?_⟩
        simp [exec, ht1, i2 hw2, Except.bind]
      | gives q =>
        obtain ⟨β2, s2⟩ := q
        obtain ⟨τ2, ht2, hr2⟩ := i1 β2 s2 hw2
        refine ⟨fun β s hw => ?_, fun hw => by simp [wanted, hw1, hw2] at hw⟩
        simp [wanted, hw1, hw2] at hw
        obtain ⟨rfl, rfl⟩ := hw
        exact ⟨τ2, by simp [exec, ht1, ht2, Except.bind], hr2⟩

example : ∃ β, wanted intElem (fun i => if i = 0 then .static 2 else .limited 3) (fun _ => none)
    [.ofRange 0 [7], .ofStatic 1 0, .write 1 1 9, .compare 1 1, .size 1, .read 0 0] = .gives (β, [.nothing, .nothing, .nothing, .order .eq, .number 2, .value 7]) :=
  ⟨_, rfl⟩

/-- **C93.** If a program that uses `flex_array`s is a constant expression, its value is what the same program computes with lists. -/
theorem flex_array_constant_value (E : Elem V) (Γ : Nat → Mode) (prog : List (Op V)) (r : St V × List (Seen V)) (β : Lists V) (s : List (Seen V))
    (hc : exec .compile E Γ (fun _ => none) prog = .ok r) (hw : wanted E Γ (fun _ => none) prog = .gives (β, s)) :
    r.2 = s ∧ Rep Γ r.1 β := by
  obtain ⟨τ, ht, hr⟩ := (flex_array_run_value E Γ (fun _ => none) (fun _ => none) (fun _ => trivial) prog).1 β s hw
  have := flex_array_agrees E Γ (fun _ => none) prog r hc
  rw [ht] at this
  cases this
  exact ⟨rfl, hr⟩

example : (∃ r, exec .compile intElem (fun _ => .limited 3) (fun _ => none) [.ofInit 0 [4, 5], .copy 1 0, .write 1 0 6, .read 0 0] = .ok r) ∧
    ∃ β, wanted intElem (fun _ => .limited 3) (fun _ => none) [.ofInit 0 [4, 5], .copy 1 0, .write 1 0 6, .read 0 0] =
      .gives (β, [.nothing, .nothing, .nothing, .value 4]) := ⟨⟨_, rfl⟩, ⟨_, rfl⟩⟩

/-! ### `variant2` -/

/-- The expected effect of an operation on variants, where a moved-from alternative keeps its value. -/
def vwant [DecidableEq V] (σ : VSt V) : VOp V → Want (VSt V × VSeen V)
  | .make d alt v => .gives (fun x => if x = d then some (some (alt, v)) else σ x, .nothing)
  | .copy d s | .move d s => match σ s with
    | some o => .gives (fun x => if x = d then some o else σ x, .nothing)
    | none => .outside
  | .assign d s => match σ d, σ s with
    | some _, some o => .gives (fun x => if x = d then some o else σ x, .nothing)
    | _, _ => .outside
  | .moveAssign d s => match σ d, σ s with
    | some _, some o => if d = s then .outside else .gives (fun x => if x = d then some o else σ x, .nothing)
    | _, _ => .outside
  | .assignValue d alt v | .emplace d alt v => match σ d with
    | some _ => .gives (fun x => if x = d then some (some (alt, v)) else σ x, .nothing)
    | none => .outside
  | .swap a b => match σ a, σ b with
    | some x, some y => if a = b then .outside else .gives (fun z => if z = a then some y else if z = b then some x else σ z, .nothing)
    | _, _ => .outside
  | .destroy a => match σ a with
    | some _ => .gives (fun x => if x = a then none else σ x, .nothing)
    | none => .outside
  | .index a => match σ a with
    | some none => .gives (σ, .alt none)
    | some (some (b, _)) => .gives (σ, .alt (some b))
    | none => .outside
  | .get a alt => match σ a with
    | some (some (b, v)) => if b = alt then .gives (σ, .value v) else .throws
    | some none => .throws
    | none => .outside
  | .equal a b => match σ a, σ b with
    | some x, some y => .gives (σ, .truth (decide (x = y)))
    | _, _ => .outside

/-- **C93.** At run time every operation of `variant2` has the expected effect, whichever special members of the alternatives are trivial. -/
theorem variant2_step_value [DecidableEq V] (t : Triv) (σ : VSt V) (op : VOp V) :
    (∀ r, vwant σ op = .gives r → vstep .run t σ op = .ok r) ∧ (vwant σ op = .throws → vstep .run t σ op = .error .threw) := by
  cases op with
  | make d alt v =>
    refine ⟨fun r hw => ?_, fun hw => by simp [vwant] at hw⟩
    simp only [vwant, Want.gives.injEq] at hw
    subst hw
    rfl
  | copy d s =>
    cases hs : σ s with
    | none => simp [vwant, hs]
    | some o =>
      refine ⟨fun r hw => ?_, fun hw => by simp [vwant, hs] at hw⟩
      simp only [vwant, hs, Want.gives.injEq] at hw
      subst hw
      simp [vstep, getVariant, hs, constructFrom_run, Except.bind]; rfl
  | move d s =>
    cases hs : σ s with
    | none => simp [vwant, hs]
    | some o =>
      refine ⟨fun r hw => ?_, fun hw => by simp [vwant, hs] at hw⟩
      simp only [vwant, hs, Want.gives.injEq] at hw
      subst hw
      simp [vstep, getVariant, hs, constructFrom_run, Except.bind]; rfl
  | assign d s =>
    cases hd : σ d with
    | none => simp [vwant, hd]
    | some x =>
      cases hs : σ s with
      | none => simp [vwant, hs, hd]
      | some o =>
        refine ⟨fun r hw => ?_, fun hw => by simp [vwant, hs, hd] at hw⟩
        simp only [vwant, hs, hd, Want.gives.injEq] at hw
        subst hw
        by_cases he : d = s
        · subst he
          simp [vstep, getVariant, hd, Except.bind]
          funext y; by_cases hy : y = d
          · subst hy; simp [hs]
          · simp [hy]
        · simp [vstep, getVariant, hs, hd, assignFrom_run, he, Except.bind]; rfl
  | moveAssign d s =>
    cases hd : σ d with
    | none => simp [vwant, hd]
    | some x =>
      cases hs : σ s with
      | none => simp [vwant, hs, hd]
      | some o =>
        by_cases he : d = s
        · simp only [vwant, hs, hd, if_pos he]; simp
        · refine ⟨fun r hw => ?_, fun hw => by simp [vwant, hs, hd, he] at hw⟩
          simp only [vwant, hs, hd, if_neg he, Want.gives.injEq] at hw
          subst hw
          simp [vstep, getVariant, hs, hd, assignFrom_run, he, Except.bind]; rfl
  | assignValue d alt v =>
    cases hd : σ d with
    | none => simp [vwant, hd]
    | some x =>
      refine ⟨fun r hw => ?_, fun hw => by simp [vwant, hd] at hw⟩
      simp only [vwant, hd, Want.gives.injEq] at hw
      subst hw
      have : assignVal .run x alt v = .ok (some (alt, v)) := by
        rcases x with _ | ⟨a, u⟩
        · rfl
        · by_cases ha : a = alt
          · subst ha; simp [assignVal]
          · simp [assignVal, ha, placementNew, Except.bind]
      simp [vstep, getVariant, hd, this, Except.bind]; rfl
  | emplace d alt v =>
    cases hd : σ d with
    | none => simp [vwant, hd]
    | some x =>
      refine ⟨fun r hw => ?_, fun hw => by simp [vwant, hd] at hw⟩
      simp only [vwant, hd, Want.gives.injEq] at hw
      subst hw
      simp [vstep, getVariant, hd, placementNew, Except.bind]; rfl
  | swap a b =>
    cases ha : σ a with
    | none => simp [vwant, ha]
    | some x =>
      cases hb : σ b with
      | none => simp [vwant, ha, hb]
      | some y =>
        by_cases he : a = b
        · simp only [vwant, ha, hb, if_pos he]; simp
        · refine ⟨fun r hw => ?_, fun hw => by simp [vwant, ha, hb, he] at hw⟩
          simp only [vwant, ha, hb, if_neg he, Want.gives.injEq] at hw
          subst hw
          simp [vstep, getVariant, ha, hb, assignFrom_run, constructFrom_run, he, Except.bind]
          funext z
          by_cases h1 : z = a <;> by_cases h2 : z = b <;> simp_all [upd]
  | destroy a =>
    cases ha : σ a with
    | none => simp [vwant, ha]
    | some x =>
      refine ⟨fun r hw => ?_, fun hw => by simp [vwant, ha] at hw⟩
      simp only [vwant, ha, Want.gives.injEq] at hw
      subst hw
      simp [vstep, getVariant, ha, Except.bind]; rfl
  | index a =>
    cases ha : σ a with
    | none => simp [vwant, ha]
    | some x =>
      refine ⟨fun r hw => ?_, fun hw => by rcases x with _ | ⟨b, v⟩ <;> simp [vwant, ha] at hw⟩
      rcases x with _ | ⟨b, v⟩ <;> simp only [vwant, ha, Want.gives.injEq] at hw <;> subst hw <;> simp [vstep, getVariant, ha, Except.bind]
  | get a alt =>
    cases ha : σ a with
    | none => simp [vwant, ha]
    | some x =>
      rcases x with _ | ⟨b, v⟩
      · refine ⟨fun r hw => by simp [vwant, ha] at hw, fun _ => by simp [vstep, getVariant, ha, Except.bind]⟩
      · by_cases hb : b = alt
        · refine ⟨fun r hw => ?_, fun hw => by simp [vwant, ha, hb] at hw⟩
          simp only [vwant, ha, if_pos hb, Want.gives.injEq] at hw
          subst hw
          simp [vstep, getVariant, ha, hb, Except.bind]
        · refine ⟨fun r hw => by simp [vwant, ha, hb] at hw, fun _ => by simp [vstep, getVariant, ha, hb, Except.bind]⟩
  | equal a b =>
    cases ha : σ a with
    | none => simp [vwant, ha]
    | some x =>
      cases hb : σ b with
      | none => simp [vwant, ha, hb]
      | some y =>
        refine ⟨fun r hw => ?_, fun hw => by simp [vwant, ha, hb] at hw⟩
        simp only [vwant, ha, hb, Want.gives.injEq] at hw
        subst hw
        by_cases hxy : x = y <;> simp [vstep, getVariant, ha, hb, Except.bind, hxy]

example : ∃ r, vwant (fun i : Nat => if i < 2 then some (some (true, i)) else none) (.swap 0 1) = .gives r := ⟨_, rfl⟩

/-- The expected result of a program using variants. -/
def vwanted [DecidableEq V] : VSt V → List (VOp V) → Want (VSt V × List (VSeen V))
  | σ, [] => .gives (σ, [])
  | σ, op :: ops => match vwant σ op with
    | .gives (τ, s) => match vwanted τ ops with
      | .gives (υ, ss) => .gives (υ, s :: ss)
      | .throws => .throws
      | .outside => .outside
    | .throws => .throws
    | .outside => .outside

/-- **C93.** A program that uses variants runs as expected, whichever special members of the alternatives are trivial; if it is a constant expression, its
value is the expected one. -/
theorem variant2_run_value [DecidableEq V] (t : Triv) (σ : VSt V) (prog : List (VOp V)) :
    (∀ r, vwanted σ prog = .gives r → vexec .run t σ prog = .ok r ∧ ∀ c, vexec .compile t σ prog = .ok c → c = r) ∧
    (vwanted σ prog = .throws → vexec .run t σ prog = .error .threw) := by
  have key : (∀ r, vwanted σ prog = .gives r → vexec .run t σ prog = .ok r) ∧ (vwanted σ prog = .throws → vexec .run t σ prog = .error .threw) := by
    induction prog generalizing σ with
    | nil =>
      refine ⟨fun r hw => ?_, fun hw => by simp [vwanted] at hw⟩
      simp only [vwanted, Want.gives.injEq] at hw
      subst hw; rfl
    | cons op ops ih =>
      obtain ⟨h1, h2⟩ := variant2_step_value t σ op
      cases hw1 : vwant σ op with
      | outside => simp [vwanted, hw1]
      | throws => exact ⟨fun r hw => by simp [vwanted, hw1] at hw, fun _ => by simp [vexec, h2 hw1, Except.bind]⟩
      | gives p =>
        obtain ⟨τ, s⟩ := p
        obtain ⟨i1, i2⟩ := ih τ
        cases hw2 : vwanted τ ops with
        | outside => simp [vwanted, hw1, hw2]
        | throws => exact ⟨fun r hw => by simp [vwanted, hw1, hw2] at hw, fun _ => by simp [vexec, h1 _ hw1, i2 hw2, Except.bind]⟩
        | gives q =>
          refine ⟨fun r hw => ?_, fun hw => by simp [vwanted, hw1, hw2] at hw⟩
          simp only [vwanted, hw1, hw2, Want.gives.injEq] at hw
          subst hw
          simp [vexec, h1 _ hw1, i1 _ hw2, Except.bind]
  refine ⟨fun r hw => ⟨key.1 r hw, fun c hc => ?_⟩, key.2⟩
  have := variant2_agrees t σ prog c hc
  rw [key.1 r hw] at this
  cases this
  rfl

example : ∃ r, vwanted (fun _ => none) [.make 0 true 5, .copy 1 0, .assignValue 0 false 7, .get 1 true, .index 0] = .gives r ∧
    r.2 = [.nothing, .nothing, .nothing, .value 5, .alt (some false)] := ⟨_, rfl, rfl⟩

/-! ### Algorithms -/

theorem unique_go {α : Type} [DecidableEq α] (l seen : List α) :
    (unique.go seen l).Nodup ∧ (∀ x, x ∈ unique.go seen l ↔ x ∈ l ∧ x ∉ seen) ∧ (unique.go seen l).Sublist l := by
  induction l generalizing seen with
  | nil => simp [unique.go]
  | cons y l ih =>
    by_cases hy : y ∈ seen
    · simp only [unique.go, if_pos hy]
      obtain ⟨h1, h2, h3⟩ := ih seen
      refine ⟨h1, fun x => ?_, h3.cons _⟩
      rw [h2]
      constructor
      · exact fun ⟨ha, hb⟩ => ⟨List.mem_cons_of_mem _ ha, hb⟩
      · rintro ⟨ha, hb⟩
        rcases List.mem_cons.mp ha with rfl | ha
        · exact absurd hy hb
        · exact ⟨ha, hb⟩
    · simp only [unique.go, if_neg hy]
      obtain ⟨h1, h2, h3⟩ := ih (y :: seen)
      refine ⟨List.nodup_cons.mpr ⟨fun hm => ?_, h1⟩, fun x => ?_, h3.cons_cons _⟩
      · exact ((h2 y).mp hm).2 (List.mem_cons_self ..)
      · rw [List.mem_cons, h2]
        by_cases hx : x = y
        · subst hx; simp [hy]
        · simp [hx]

/-- **C93.** At run time the algorithms that are not constant expressions give what they should: `all_equal` says whether all elements equal the first one,
`unique` gives each element once and in the order of the range, and the subtuple has the elements at the given positions. -/
theorem algorithms_run_value {α : Type} [DecidableEq α] (eq : α → α → Bool) (form : CallForm) (l : List α) (off count limit : Nat) :
    (∃ b, allEqual .run form eq l = .ok b ∧ (b = true ↔ ∀ x xs, l = x :: xs → ∀ y ∈ xs, eq y x = true)) ∧
    (∃ r, unique .run l = .ok r ∧ r.Nodup ∧ (∀ x, x ∈ r ↔ x ∈ l) ∧ r.Sublist l) ∧
    (∃ r, intSubtuple .run off count l = .ok r ∧ r.length = min count (l.length - off) ∧ ∀ i, i < count → r[i]? = l[off + i]?) ∧
    mkLimit .run limit = .ok limit ∧ (∀ start stop step : Int, step ≠ 0 → mkRange .run start stop step = .ok (start, stop, step)) ∧
    (∀ w f, plainAlgo w f l = .ok l) ∧ (∀ w p t, pairGet w p t true = .ok t) ∧ nextToRange .run true l = .ok l := by
  refine ⟨?_, ?_, ?_, rfl, fun a b c h => by simp [mkRange, h], fun _ _ => rfl, fun _ _ _ => rfl, rfl⟩
  · cases l with
    | nil => exact ⟨true, rfl, by simp⟩
    | cons x xs => exact ⟨_, rfl, by simp⟩
  · obtain ⟨h1, h2, h3⟩ := unique_go l []
    exact ⟨_, rfl, h1, by simpa using h2, h3⟩
  · refine ⟨_, rfl, by simp, fun i hi => ?_⟩
    simp [hi]

end Verif.Constexpr
