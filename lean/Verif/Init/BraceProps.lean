import Verif.Init.BraceModel
import Verif.Init.Props
/-!
# Properties of construction in place (C95)
-/
namespace Verif.Init

/-- The narrowing conversions of the model are those of the specification of C94. -/
theorem narrows_eq (s t : Ty) : narrows s t = narrowing s t := by
  cases s with
  | int w sg => cases sg <;> cases t with
    | int w' sg' => cases sg' <;> simp [narrows, narrowing, bounds, Ty.bounds, ← Int.not_le, Bool.not_and]
    | _ => simp [narrows, narrowing, bounds, Ty.bounds, ← Int.not_le, Bool.not_and]
  | _ => cases t with
    | int w' sg' => cases sg' <;> simp [narrows, narrowing, bounds, Ty.bounds, ← Int.not_le, Bool.not_and]
    | _ => simp [narrows, narrowing, bounds, Ty.bounds]

theorem braceable_eq (env : Env) (s t : Ty) : braceable env s t = initializes env s t := by
  have h : narrows = narrowing := by funext s t; exact narrows_eq s t
  unfold braceable initializes
  rw [h]
  rfl

/-- For classes, parentheses call a constructor or are ill-formed. -/
theorem paren_class (env : Env) (K : Nat → Cls) (n : Nat) (args : List Ty) :
    paren env K (.cls n) args = .illFormed ∨ ∃ k, paren env K (.cls n) args = .ctor k := by
  unfold paren
  dsimp only
  split
  · split
    · exact .inl rfl
    · exact .inr ⟨_, rfl⟩
  · exact .inl rfl

/-- The constructor for initializer lists of class `n` can take all the arguments. -/
def ListTakes (env : Env) (K : Nat → Cls) (n : Nat) (args : List Ty) : Prop := ∃ x, (K n).list = some x ∧ ∀ s ∈ args, ∃ i, conv env s x = some i

/-- The arguments initialize the parameters without narrowing. -/
def NoNarrowing (env : Env) (args params : List Ty) : Prop := ∀ p ∈ params.zip args, initializes env p.2 p.1 = true

theorem listTakes_iff {env : Env} {K : Nat → Cls} {n : Nat} {args : List Ty} :
    ((K n).list.any fun x => args.all fun s => (conv env s x).isSome) = true ↔ ListTakes env K n args := by
  unfold ListTakes
  rw [Option.any_eq_true]
  constructor
  · rintro ⟨x, hx, h⟩
    rw [List.all_eq_true] at h
    exact ⟨x, hx, fun s hs => Option.isSome_iff_exists.mp (h s hs)⟩
  · rintro ⟨x, hx, h⟩
    exact ⟨x, hx, List.all_eq_true.mpr fun s hs => Option.isSome_iff_exists.mpr (h s hs)⟩

/-- **C95.** Braces never select a constructor that parentheses would not: an object is made as by parentheses, or from a list with one element for each
argument, all of which initialize an element without narrowing, or the program is ill-formed. -/
theorem never_other_constructor (env : Env) (K : Nat → Cls) (site : Site) (t : Ty) (args : List Ty) :
    site.make env K t args = paren env K t args ∨ site.make env K t args = .illFormed ∨
    ∃ n x, t = .cls n ∧ (K n).list = some x ∧ (∀ s ∈ args, initializes env s x = true) ∧ site.make env K t args = .list args.length := by
  have key : brace env K t args = paren env K t args ∨ brace env K t args = .illFormed ∨
      ∃ n x, t = .cls n ∧ (K n).list = some x ∧ (∀ s ∈ args, initializes env s x = true) ∧ brace env K t args = .list args.length := by
    cases t with
    | cls n =>
      unfold brace
      dsimp only
      split
      · exact .inl rfl
      · split
        · split
          · rename_i h1 h2
            obtain ⟨x, hx, _⟩ := listTakes_iff.mp h1
            rw [hx] at h2
            simp only [Option.all_some, List.all_eq_true, braceable_eq] at h2
            exact .inr (.inr ⟨n, x, rfl, hx, h2, rfl⟩)
          · exact .inr (.inl rfl)
        · split
          · rename_i k hk
            split
            · exact .inl hk.symm
            · exact .inr (.inl rfl)
          · exact .inl rfl
    | _ =>
      unfold brace paren
      rcases args with _ | ⟨s, _ | ⟨s', l⟩⟩
      · exact .inl rfl
      · dsimp only
        split
        · rename_i h
          rw [braceable_eq] at h
          obtain ⟨i, hi, hne⟩ := initializes_conv h
          left
          rw [hi]
          cases i <;> simp_all
        · exact .inr (.inl rfl)
      · exact .inl rfl
  cases site
  case channel => exact .inl rfl
  case exchange => exact .inl rfl
  all_goals exact key

/-- **C95.** The channels make their elements as `T(args...)` does. For the others, an object of a class is made as by `T(args...)` exactly if
the default constructor is used, or the constructor for initializer lists cannot take the arguments and no argument of the constructor called is narrowed; or if both
are ill-formed. -/
theorem made_as_parens_partial (env : Env) (K : Nat → Cls) (site : Site) (n : Nat) (args : List Ty) :
    (site = .channel ∨ site = .exchange → ∀ t, site.make env K t args = paren env K t args) ∧
    (site ≠ .channel → site ≠ .exchange → (site.make env K (.cls n) args = paren env K (.cls n) args ↔
      (args = [] ∧ [] ∈ (K n).ctors) ∨
      (¬ ListTakes env K n args ∧ ∀ k, paren env K (.cls n) args = .ctor k → NoNarrowing env args ((K n).ctors[k]?.getD [])) ∨
      (ListTakes env K n args ∧ paren env K (.cls n) args = .illFormed ∧ ∃ x s, (K n).list = some x ∧ s ∈ args ∧ initializes env s x = false))) := by
  have key : brace env K (.cls n) args = paren env K (.cls n) args ↔
      (args = [] ∧ [] ∈ (K n).ctors) ∨
      (¬ ListTakes env K n args ∧ ∀ k, paren env K (.cls n) args = .ctor k → NoNarrowing env args ((K n).ctors[k]?.getD [])) ∨
      (ListTakes env K n args ∧ paren env K (.cls n) args = .illFormed ∧ ∃ x s, (K n).list = some x ∧ s ∈ args ∧ initializes env s x = false) := by
    unfold brace
    dsimp only
    split
    · rename_i h; simp [h]
    · rename_i hd
      simp only [hd, false_or]
      split
      · rename_i h1
        have h1' := listTakes_iff.mp h1
        obtain ⟨x, hx, hconv⟩ := h1'
        have hl : ListTakes env K n args := ⟨x, hx, hconv⟩
        split
        · rename_i h2
          rw [hx] at h2
          simp only [Option.all_some, List.all_eq_true, braceable_eq] at h2
          constructor
          · intro h
            rcases paren_class env K n args with hp | ⟨k, hp⟩ <;> rw [hp] at h <;> cases h
          · rintro (⟨h, _⟩ | ⟨_, _, x', s, hx', hs, hi⟩)
            · exact absurd hl h
            · rw [hx] at hx'; cases hx'
              rw [h2 s hs] at hi; cases hi
        · rename_i h2
          rw [hx] at h2
          simp only [Option.all_some, List.all_eq_true, braceable_eq] at h2
          have h3 : ∃ s ∈ args, initializes env s x = false := by
            apply Classical.byContradiction
            intro hn
            refine h2 fun s hs => ?_
            cases hi : initializes env s x with
            | true => rfl
            | false => exact absurd ⟨s, hs, hi⟩ hn
          obtain ⟨s, hs, hi⟩ := h3
          constructor
          · intro h
            exact .inr ⟨hl, h.symm, x, s, hx, hs, hi⟩
          · rintro (⟨h, _⟩ | ⟨_, h, _⟩)
            · exact absurd hl h
            · exact h.symm
      · rename_i h1
        have hl : ¬ ListTakes env K n args := fun h => h1 (listTakes_iff.mpr h)
        rcases paren_class env K n args with hp | ⟨k, hp⟩
        · simp [hp, hl]
        · have hall : ((((K n).ctors[k]?.getD []).zip args).all fun p => braceable env p.2 p.1) = true ↔
              NoNarrowing env args ((K n).ctors[k]?.getD []) := by
            rw [List.all_eq_true]
            unfold NoNarrowing
            simp only [braceable_eq]
          simp only [hp, hl, not_false_eq_true, true_and, false_and, or_false]
          split
          · rename_i h
            refine ⟨fun _ k' hk' => ?_, fun _ => rfl⟩
            cases hk'; exact hall.mp h
          · rename_i h
            exact ⟨fun h' => Made.noConfusion h', fun h' => absurd (hall.mpr (h' k rfl)) h⟩
  refine ⟨?_, ?_⟩
  · rintro (rfl | rfl) t <;> rfl
  · intro h1 h2
    cases site
    case channel => exact absurd rfl h1
    case exchange => exact absurd rfl h2
    all_goals exact key

/-- **C95.** Scalars are made as by `T(args...)` except that narrowing is ill-formed. -/
theorem scalar_made (env : Env) (K : Nat → Cls) (site : Site) (h1 : site ≠ .channel) (h2 : site ≠ .exchange) (t s : Ty) (ht : ∀ n, t ≠ .cls n) :
    site.make env K t [] = .zero ∧ (site.make env K t [s] = .scalar ↔ initializes env s t = true) ∧
    (site.make env K t [s] ≠ .scalar → site.make env K t [s] = .illFormed) := by
  have key : brace env K t [] = .zero ∧ (brace env K t [s] = .scalar ↔ initializes env s t = true) ∧
      (brace env K t [s] ≠ .scalar → brace env K t [s] = .illFormed) := by
    cases t with
    | cls n => exact absurd rfl (ht n)
    | _ => refine ⟨rfl, ?_, ?_⟩ <;> simp only [brace, braceable_eq] <;> split <;> simp_all
  cases site
  case channel => exact absurd rfl h1
  case exchange => exact absurd rfl h2
  all_goals exact key

example (env : Env) (K : Nat → Cls) : Site.variant.make env K .int32 [] = .zero := (scalar_made env K .variant (by simp) (by simp) .int32 .int32 (by simp)).1

/-! ### Copies -/

theorem mem_viable {env : Env} {K : Cls} {args : List Ty} {k : Nat} {l : List Ics} :
    (k, l) ∈ viable env K args ↔ ∃ ps, K.ctors[k]? = some ps ∧ argIcs env args ps = some l := by
  unfold viable
  rw [List.mem_filterMap]
  constructor
  · rintro ⟨⟨ps, j⟩, hm, h⟩
    rw [List.mem_zipIdx_iff_getElem?] at hm
    simp only [Option.map_eq_some_iff, Prod.mk.injEq] at h
    obtain ⟨l', hl', rfl, rfl⟩ := h
    exact ⟨ps, hm, hl'⟩
  · rintro ⟨ps, hp, hl⟩
    exact ⟨(ps, k), List.mem_zipIdx_iff_getElem?.mpr hp, by simp [hl]⟩

theorem betterAll_asymm {xs ys : List Ics} (h : betterAll xs ys = true) : betterAll ys xs = false := by
  cases hb : betterAll ys xs with
  | false => rfl
  | true =>
    exfalso
    simp only [betterAll, Bool.and_eq_true, List.all_eq_true, List.any_eq_true] at h hb
    obtain ⟨p, hp, hbp⟩ := h.2
    have hq : (p.2, p.1) ∈ ys.zip xs := by
      rw [List.mem_iff_getElem?] at hp ⊢
      obtain ⟨i, hi⟩ := hp
      rw [List.getElem?_zip_eq_some] at hi
      exact ⟨i, List.getElem?_zip_eq_some.mpr ⟨hi.2, hi.1⟩⟩
    have := hb.1 _ hq
    simp [hbp] at this

/-- A constructor better than all others is called. -/
theorem paren_best {env : Env} {K : Nat → Cls} {n : Nat} {args : List Ty} {k : Nat} {l : List Ics} (hk : (k, l) ∈ viable env (K n) args)
    (ha : .ambiguous ∉ l) (hb : ∀ k' l', (k', l') ∈ viable env (K n) args → k' = k ∨ betterAll l l' = true) :
    paren env K (.cls n) args = .ctor k := by
  unfold paren
  dsimp only
  have hmem : (k, l) ∈ (viable env (K n) args).filter fun c => (viable env (K n) args).all fun d => decide (d.1 = c.1) || betterAll c.2 d.2 := by
    rw [List.mem_filter, List.all_eq_true]
    refine ⟨hk, fun d hd => ?_⟩
    rcases hb d.1 d.2 hd with h | h <;> simp [h]
  split
  · rename_i c rest heq
    have hc : c ∈ (viable env (K n) args).filter fun c => (viable env (K n) args).all fun d => decide (d.1 = c.1) || betterAll c.2 d.2 := by
      rw [heq]; exact List.mem_cons_self
    rw [List.mem_filter, List.all_eq_true] at hc
    have h1 := hc.2 _ hk
    have hck : c.1 = k := by
      rcases hb c.1 c.2 hc.1 with h | h
      · exact h
      · simp only [betterAll_asymm h, Bool.or_false, decide_eq_true_eq] at h1
        exact h1.symm
    have hcl : c.2 = l := by
      obtain ⟨ps, hp, hl⟩ := mem_viable.mp hk
      have : (c.1, c.2) ∈ viable env (K n) args := hc.1
      obtain ⟨ps', hp', hl'⟩ := mem_viable.mp this
      rw [hck, hp] at hp'
      cases hp'
      rw [hl] at hl'; cases hl'; rfl
    rw [hcl, if_neg ha, hck]
  · rename_i heq; rw [heq] at hmem; cases hmem

/-- A value of a class with one copy constructor is copied by it if parentheses are used. -/
theorem copy_parens {env : Env} {K : Nat → Cls} {n k : Nat} (hk : (K n).ctors[k]? = some [.cls n])
    (hu : ∀ k', (K n).ctors[k']? = some [.cls n] → k' = k) : paren env K (.cls n) [.cls n] = .ctor k := by
  have hv : (k, [Ics.std ⟨0, 0⟩]) ∈ viable env (K n) [.cls n] := mem_viable.mpr ⟨_, hk, by simp [argIcs, conv_self]⟩
  refine paren_best hv (by simp) fun k' l' h => ?_
  obtain ⟨ps, hp, hl⟩ := mem_viable.mp h
  rcases ps with _ | ⟨p, _ | ⟨p', ps⟩⟩
  · simp [argIcs] at hl
  · by_cases he : p = .cls n
    · subst he; exact .inl (hu k' hp)
    · right
      simp only [argIcs] at hl
      split at hl
      · rename_i i l hi hll
        cases hl; cases hll
        have := exact_better (Ne.symm he) hi
        simp [betterAll, this, Ics.better_asymm this]
      · cases hl
  · simp [argIcs] at hl

/-- **C95.** Where an element is copied or moved from another object of its class, its copy constructor is called, except if the class has a constructor for
initializer lists whose elements can be made from an object of the class itself: then the new object is a list with the old one as its
only element, or the program is ill-formed. -/
theorem copy_made_partial (env : Env) (K : Nat → Cls) (site : Site) (n k : Nat) (hk : (K n).ctors[k]? = some [.cls n])
    (hu : ∀ k', (K n).ctors[k']? = some [.cls n] → k' = k) :
    (site = .channel ∨ site = .exchange → site.make env K (.cls n) [.cls n] = .ctor k) ∧
    ((∀ x, (K n).list = some x → conv env (.cls n) x = none) → site.make env K (.cls n) [.cls n] = .ctor k) ∧
    (site ≠ .channel → site ≠ .exchange → ∀ x i, (K n).list = some x → conv env (.cls n) x = some i →
      site.make env K (.cls n) [.cls n] = if initializes env (.cls n) x then .list 1 else .illFormed) := by
  have hp := copy_parens (env := env) hk hu
  have hpart := made_as_parens_partial env K site n [.cls n]
  refine ⟨fun h => by rw [hpart.1 h, hp], fun hx => ?_, fun h1 h2 x i hx hc => ?_⟩
  · by_cases h1 : site = .channel
    · rw [hpart.1 (.inl h1), hp]
    · by_cases h2 : site = .exchange
      · rw [hpart.1 (.inr h2), hp]
      · refine ((hpart.2 h1 h2).mpr (.inr (.inl ⟨?_, ?_⟩))).trans hp
        · rintro ⟨x, hx', hs⟩
          obtain ⟨i, hi⟩ := hs (.cls n) (by simp)
          rw [hx x hx'] at hi; cases hi
        · intro k' hk'
          rw [hp] at hk'; cases hk'
          rw [hk]
          simp [NoNarrowing, initializes, conv_self, narrowing_self]
  · have key : brace env K (.cls n) [.cls n] = if initializes env (.cls n) x then .list 1 else .illFormed := by
      unfold brace
      simp [hx, hc, braceable_eq]
    cases site
    case channel => exact absurd rfl h1
    case exchange => exact absurd rfl h2
    all_goals exact key

/-! ### Exceptions -/

/-- **C95.** If an object is made as by `T(args...)`, it is declared correctly whether this can throw. -/
theorem noexcept_right_partial (env : Env) (K : Nat → Cls) (site : Site) (t : Ty) (args : List Ty)
    (hm : site.make env K t args = paren env K t args) (hd : declaredNoexcept env K t args = true) : mayThrow K t (site.make env K t args) = false := by
  rw [hm]
  unfold declaredNoexcept at hd
  cases t with
  | cls n =>
    rcases paren_class env K n args with hp | ⟨k, hp⟩
    · rw [hp] at hd; cases hd
    · rw [hp] at hd ⊢; simpa [mayThrow] using hd
  | _ =>
    cases hp : paren env K _ args <;> simp [mayThrow]

example (env : Env) (K : Nat → Cls) (site : Site) (h : site.make env K .int32 [.int32] = paren env K .int32 [.int32]) (hd : declaredNoexcept env K .int32 [.int32] = true) :
    mayThrow K .int32 (site.make env K .int32 [.int32]) = false := noexcept_right_partial env K site _ _ h hd

/-- **C95.** The declaration is exact about `T(args...)`: it says that nothing is thrown exactly if the expression is well-formed and calls no constructor that can throw. -/
theorem declared_iff (env : Env) (K : Nat → Cls) (t : Ty) (args : List Ty) :
    declaredNoexcept env K t args = true ↔ paren env K t args ≠ .illFormed ∧ mayThrow K t (paren env K t args) = false := by
  unfold declaredNoexcept
  cases t with
  | cls n =>
    rcases paren_class env K n args with hp | ⟨k, hp⟩
    · rw [hp]; simp
    · rw [hp]; simp [mayThrow]
  | _ =>
    cases hp : paren env K _ args <;> simp [mayThrow]

/-! ### Counterexamples -/

/-- Class 0 is `std::vector<int>`: constructors without arguments, from a count, from a count and a value, and copies. Class 1 is
`std::any`, made from everything, of which classes 1 and 2 matter; class 2 is `std::vector<std::any>`. Copies are made with a constructor that
can throw, except for class 2, which stands for the moves. -/
def stdlib : Env where
  bases := fun _ => []
  ctors := fun n => if n = 1 then [.int32, .cls 2] else []
  convs := fun _ => []
  dflt := fun _ => true

/-- See `stdlib`. -/
def stdCls : Nat → Cls
  | 0 => ⟨[[], [.int 64 false], [.int 64 false, .int32], [.cls 0]], some .int32, fun _ => false, false⟩
  | 1 => ⟨[[], [.cls 1], [.int32]], none, fun _ => false, false⟩
  | _ => ⟨[[], [.int 64 false], [.cls 2]], some (.cls 1), fun k => k == 2, false⟩

example : (stdCls 2).ctors[2]? = some [.cls 2] ∧ ∀ k', (stdCls 2).ctors[k']? = some [.cls 2] → k' = 2 := by
  refine ⟨rfl, fun k' h => ?_⟩
  rcases k' with _ | _ | _ | k'
  · simp [stdCls] at h
  · simp [stdCls] at h
  · rfl
  · simp [stdCls] at h

example : Site.variant.make stdlib stdCls (.cls 0) [.int 64 false] = .illFormed ∧ Site.variant.make stdlib stdCls (.cls 1) [.int32] = .ctor 2 ∧
    Site.variant.make stdlib stdCls (.cls 0) [] = paren stdlib stdCls (.cls 0) [] := by decide

/-- **C95, refuted.** `emplace<std::vector<int>>(3, 5)` of a `variant2` makes `{3, 5}` instead of three times 5; an object of type `mutex<std::vector<int>>` cannot be
made from a size; a `variant2` holding a `std::vector<std::any>` is moved by making a vector with the old one as its only element, which may throw
although the constructor of the variant is declared not to; `standard_layout_tuple<int>` cannot be made from a `double`. -/
theorem made_as_parens_refuted :
    (Site.variant.make stdlib stdCls (.cls 0) [.int32, .int32] = .list 2 ∧ paren stdlib stdCls (.cls 0) [.int32, .int32] = .ctor 2) ∧
    (Site.mutex.make stdlib stdCls (.cls 0) [.int 64 false] = .illFormed ∧ paren stdlib stdCls (.cls 0) [.int 64 false] = .ctor 1) ∧
    (Site.variantValue.make stdlib stdCls (.cls 2) [.cls 2] = .list 1 ∧ paren stdlib stdCls (.cls 2) [.cls 2] = .ctor 2 ∧
      declaredNoexcept stdlib stdCls (.cls 2) [.cls 2] = true ∧ mayThrow stdCls (.cls 2) (Site.variantValue.make stdlib stdCls (.cls 2) [.cls 2]) = true) ∧
    (tupleOf stdlib stdCls [.int32] [.flt 64] = none ∧ paren stdlib stdCls .int32 [.flt 64] = .scalar) := by
  decide

/-! ### Tuples -/

/-- **C95.** A tuple can be made from values exactly if there is one for each element and each initializes its element in braces; the elements are
made one by one, in order. -/
theorem tuple_made (env : Env) (K : Nat → Cls) (ts ss : List Ty) (r : List Made) : tupleOf env K ts ss = some r ↔
    ts.length = ss.length ∧ r = List.zipWith (fun t s => Site.tuple.make env K t [s]) ts ss ∧ .illFormed ∉ r := by
  induction ts generalizing ss r with
  | nil => cases ss <;> simp [tupleOf, eq_comm]; rintro rfl; simp
  | cons t ts ih =>
    cases ss with
    | nil => simp [tupleOf]
    | cons s ss =>
      simp only [tupleOf, Option.bind_eq_some_iff, List.length_cons, Nat.add_right_cancel_iff, List.zipWith_cons_cons]
      constructor
      · rintro ⟨r', hr', h⟩
        obtain ⟨h1, h2, h3⟩ := (ih ss r').mp hr'
        split at h
        · cases h
        · rename_i hn
          cases h
          exact ⟨h1, by rw [h2], by simp only [List.mem_cons, not_or]; exact ⟨fun he => hn he.symm, h3⟩⟩
      · rintro ⟨h1, rfl, h3⟩
        simp only [List.mem_cons, not_or] at h3
        refine ⟨_, (ih ss _).mpr ⟨h1, rfl, h3.2⟩, ?_⟩
        split
        · rename_i he; exact absurd he.symm h3.1
        · rfl

example : tupleOf stdlib stdCls [.int32, .cls 0] [.int32, .int32] = some [.scalar, .list 1] := by decide

/-- **C95.** `uniform_construct` makes each element from all the arguments, in braces. -/
theorem tuple_uniform (env : Env) (K : Nat → Cls) (args ts : List Ty) (r : List Made) : tupleUniform env K args ts = some r ↔
    r = ts.map (fun t => Site.tuple.make env K t args) ∧ .illFormed ∉ r := by
  induction ts generalizing r with
  | nil => simp [tupleUniform, eq_comm]; rintro rfl; simp
  | cons t ts ih =>
    simp only [tupleUniform, Option.bind_eq_some_iff, List.map_cons]
    constructor
    · rintro ⟨r', hr', h⟩
      obtain ⟨h2, h3⟩ := (ih r').mp hr'
      split at h
      · cases h
      · rename_i hn
        cases h
        exact ⟨by rw [h2], by simp only [List.mem_cons, not_or]; exact ⟨fun he => hn he.symm, h3⟩⟩
    · rintro ⟨rfl, h3⟩
      simp only [List.mem_cons, not_or] at h3
      refine ⟨_, (ih _).mpr ⟨rfl, h3.2⟩, ?_⟩
      split
      · rename_i he; exact absurd he.symm h3.1
      · rfl

example : tupleUniform stdlib stdCls [.int32] [.int32, .int32, .int32] = some [.scalar, .scalar, .scalar] := by decide

end Verif.Init
