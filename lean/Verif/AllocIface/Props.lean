import Verif.AllocIface.Model

/-!
C97: an allocator that wraps another one can take its place in containers.
-/
namespace Verif.AllocIface

/-! ## Specification -/

/-- The innermost allocator, which is the one in use. -/
def leaf : Al → Decl
  | .base d => d
  | .limit _ a => leaf a
  | .poly _ a _ => leaf a
  | .offset a => leaf a

/-- The other classes in the lists of `polymorphic_allocator`s. -/
def others : Al → List Decl
  | .base _ => []
  | .limit _ a => others a
  | .poly bs a as => bs ++ as ++ others a
  | .offset a => others a

/-- The allocators inside of `limit_allocator`s, with the syncness. -/
def limited : Al → List (Bool × Al)
  | .base _ => []
  | .limit s a => (s, a) :: limited a
  | .poly _ a _ => limited a
  | .offset a => limited a

/-- Is it a wrapper? -/
def wraps : Al → Bool
  | .base _ => false
  | _ => true

/-- The allocator `d` inside `k` times `limit_allocator`. -/
def limits (d : Decl) : List Bool → Al
  | [] => .base d
  | s :: ss => .limit s (limits d ss)

/-- Widths of the integer types that the number of objects passes on its way inwards. -/
def widths : Al → List Nat
  | .base d => [d.bits]
  | .limit s a => bits (.limit s a) :: 64 :: widths a
  | .poly bs a as => bits (.poly bs a as) :: 64 :: widths a
  | .offset a => 64 :: 64 :: widths a

/-- A vector of objects of `size` bytes accepts that many. -/
def accepts (size : Nat) (a : Al) : Nat := min ((2 ^ 63 - 1) / size) (maxSize size a)

/-! ## Examples -/

/-- A conforming allocator with `uint32_t` as size type, with `construct`, and without default constructor, as for a region of memory shared by processes. -/
def small : Decl := ⟨1, .raw, some 32, some true, some true, some true, none, false, some 1000, some 7, some 8, true, false, true, true⟩

/-- The same with the defaults for `max_size`, `construct` and `destroy`. -/
def small' : Decl := { small with id := 2, maxSize := none, construct := none, destroy := none }

/-! ## Memory -/

theorem mod_le' (n w : Nat) : n % 2 ^ w ≤ n := Nat.mod_le _ _

theorem member_le (a : Al) : ∀ n, member a n ≤ n := by
  induction a with
  | base d => intro n; exact Nat.le_refl _
  | limit s a ih => intro n; exact Nat.le_trans (ih _) (Nat.le_trans (Nat.mod_le _ _) (Nat.mod_le _ _))
  | poly bs a as ih => intro n; exact Nat.le_trans (ih _) (Nat.le_trans (Nat.mod_le _ _) (Nat.mod_le _ _))
  | offset a ih => intro n; exact Nat.le_trans (ih _) (Nat.le_trans (Nat.mod_le _ _) (Nat.mod_le _ _))

theorem allocate_le (a : Al) (n : Nat) : allocate a n ≤ n := Nat.le_trans (member_le a _) (Nat.mod_le _ _)

theorem mod_eq_iff (n w : Nat) : n % 2 ^ w = n ↔ n < 2 ^ w := by
  constructor
  · intro h
    rw [← h]
    exact Nat.mod_lt _ (Nat.two_pow_pos w)
  · exact Nat.mod_eq_of_lt

theorem layer (f : Nat → Nat) (hf : ∀ n, f n ≤ n) (w n : Nat) :
    f (n % 2 ^ w % 2 ^ 64) = n ↔ n < 2 ^ w ∧ n < 2 ^ 64 ∧ f n = n := by
  constructor
  · intro h
    have h1 := hf (n % 2 ^ w % 2 ^ 64)
    have h2 := Nat.mod_le (n % 2 ^ w) (2 ^ 64)
    have h3 := Nat.mod_le n (2 ^ w)
    have e1 : n % 2 ^ w = n := by omega
    have e2 : n % 2 ^ 64 = n := by rw [e1] at h2 h1 h; omega
    refine ⟨(mod_eq_iff n w).1 e1, (mod_eq_iff n 64).1 e2, ?_⟩
    rwa [e1, e2] at h
  · rintro ⟨h1, h2, h3⟩
    rw [Nat.mod_eq_of_lt h1, Nat.mod_eq_of_lt h2, h3]

/-- The innermost allocator is asked for exactly as many objects as the container asked for if and only if the number fits all the size types on the way. -/
theorem allocate_exact (a : Al) (n : Nat) : allocate a n = n ↔ ∀ w ∈ widths a, n < 2 ^ w := by
  induction a with
  | base d => simp only [allocate, member, widths, List.mem_singleton, forall_eq, bits, mod_eq_iff]
  | limit s a ih =>
    show allocate a (n % 2 ^ _ % 2 ^ 64) = n ↔ _
    rw [layer _ (allocate_le a), ih]
    simp [widths, bits]
  | poly bs a as ih =>
    show allocate a (n % 2 ^ _ % 2 ^ 64) = n ↔ _
    rw [layer _ (allocate_le a), ih]
    simp [widths, bits]
  | offset a ih =>
    show allocate a (n % 2 ^ _ % 2 ^ 64) = n ↔ _
    rw [layer _ (allocate_le a), ih]
    simp [widths, bits]

-- through three layers
example : allocate (.limit true (.poly [small] (.offset (.base std)) [])) 100000 = 100000 := by decide

/-- Vectors get memory for at least as many elements as they think if and only if they never accept more than fits the size types. -/
theorem reserve_exact (size : Nat) (a : Al) :
    (∀ n m, reserve size a n = .block m → n ≤ m) ↔ ∀ w ∈ widths a, accepts size a < 2 ^ w := by
  constructor
  · intro h w hw
    have h1 := h (accepts size a) (allocate a (accepts size a)) (by simp [reserve, accepts])
    have h2 := allocate_le a (accepts size a)
    exact (allocate_exact a _).1 (by omega) w hw
  · intro h n m hm
    simp only [reserve] at hm
    split at hm
    · rename_i hn
      cases hm
      have : allocate a n = n := (allocate_exact a n).2 fun w hw => Nat.lt_of_le_of_lt hn (h w hw)
      omega
    · cases hm

theorem max_lt (size : Nat) (a : Al) : maxSize size a < 2 ^ bits a := by
  cases a with
  | base d => exact Nat.mod_lt _ (Nat.two_pow_pos _)
  | _ =>
    exact Nat.lt_of_le_of_lt (Nat.div_le_self _ _) (Nat.sub_lt (Nat.two_pow_pos _) (by decide))

/-- The allocator without wrapper gives the memory for each vector. -/
theorem reserve_unwrapped (size : Nat) (d : Decl) (n m : Nat) (h : reserve size (.base d) n = .block m) : m = n := by
  simp only [reserve] at h
  split at h
  · rename_i hn
    cases h
    refine (allocate_exact _ n).2 fun w hw => ?_
    simp only [widths, List.mem_singleton] at hw
    subst hw
    have := max_lt size (.base d)
    simp only [bits] at this
    omega
  · cases h

example : reserve 4 (.base small) 500 = .block 500 := by decide

theorem limits_bits (d : Decl) (ss : List Bool) : bits (limits d ss) = d.bits := by
  induction ss with
  | nil => rfl
  | cons s ss ih => simpa [limits, bits] using ih

theorem limits_widths (d : Decl) (ss : List Bool) : ∀ w ∈ widths (limits d ss), w = d.bits ∨ w = 64 := by
  induction ss with
  | nil => simp [limits, widths]
  | cons s ss ih =>
    simp only [limits, widths, List.mem_cons, bits, limits_bits]
    rintro w (rfl | rfl | h)
    · exact .inl rfl
    · exact .inr rfl
    · exact ih w h

/-- With `limit_allocator`, also nested, vectors get their memory whatever the size type of the allocator is, because the size type is that of the allocator. -/
theorem reserve_limit (size : Nat) (d : Decl) (ss : List Bool) (n m : Nat) (h : reserve size (limits d ss) n = .block m) : m = n := by
  simp only [reserve] at h
  split at h
  · rename_i hn
    cases h
    refine (allocate_exact _ n).2 fun w hw => ?_
    rcases limits_widths d ss w hw with rfl | rfl
    · have := max_lt size (limits d ss)
      rw [limits_bits] at this
      omega
    · have : (2 ^ 63 - 1) / size ≤ 2 ^ 63 - 1 := Nat.div_le_self _ _
      omega
  · cases h

example : reserve 4 (limits small [true, false]) 500 = .block 500 := by decide

/-- With any wrappers in any nesting, vectors get their memory if all size types and those of pointers have 64 bits. -/
theorem reserve_partial (size : Nat) (a : Al) (h64 : ∀ w ∈ widths a, 64 ≤ w) (n m : Nat) (h : reserve size a n = .block m) : m = n := by
  simp only [reserve] at h
  split at h
  · rename_i hn
    cases h
    refine (allocate_exact _ n).2 fun w hw => ?_
    have : (2 ^ 63 - 1) / size ≤ 2 ^ 63 - 1 := Nat.div_le_self _ _
    have : 2 ^ 64 ≤ 2 ^ w := Nat.pow_le_pow_right (by decide) (h64 w hw)
    omega
  · cases h

example : (∀ w ∈ widths (.poly [] (.offset (.limit true (.base std))) [std]), 64 ≤ w) ∧
    reserve 8 (.poly [] (.offset (.limit true (.base std))) [std]) 77 = .block 77 := by decide

/-- A vector with a `polymorphic_allocator` or `offset_ptr_stl_allocator` around an allocator with a 32-bit size type believes to have memory for 2^32 + 1 elements but has it for one. -/
theorem reserve_refuted : ∃ d : Decl, wellFormed (.poly [] (.base d) []) = true ∧ wellFormed (.offset (.base d)) = true ∧
    reserve 1 (.base d) (2 ^ 32 + 1) = .tooLong ∧
    reserve 1 (.poly [] (.base d) []) (2 ^ 32 + 1) = .block 1 ∧
    reserve 1 (.offset (.base d)) (2 ^ 32 + 1) = .block 1 := ⟨small, by decide⟩

/-- The wrappers hide `max_size`. If the allocator has none, `limit_allocator` has the same. -/
theorem max_size_partial (size : Nat) (d : Decl) (ss : List Bool) (h : d.maxSize = none) :
    maxSize size (limits d ss) = maxSize size (.base d) := by
  have hlt : (2 ^ d.bits - 1) / size < 2 ^ d.bits :=
    Nat.lt_of_le_of_lt (Nat.div_le_self _ _) (Nat.sub_lt (Nat.two_pow_pos _) (by decide))
  cases ss with
  | nil => rfl
  | cons s ss => simp [limits, maxSize, bits, limits_bits, h, Nat.mod_eq_of_lt hlt]

example : maxSize 4 (limits small' [true]) = maxSize 4 (.base small') ∧ maxSize 4 (.base small') ≠ 0 := by decide

/-- A vector grows until the allocator fails instead of reporting a length error at the documented size. -/
theorem max_size_refuted : ∃ d : Decl, ∀ a ∈ [Al.limit true (.base d), .poly [] (.base d) [], .offset (.base d)],
    reserve 4 (.base d) 1001 = .tooLong ∧ reserve 4 a 1001 = .block 1001 := ⟨small, by decide⟩

/-- No wrapper passes hints on. -/
theorem hints (a : Al) (h : wraps a = true) : hinted a = false := by cases a <;> simp_all [wraps, hinted]

example : hinted (.base small) = true ∧ hinted (.limit true (.base small)) = false := by decide

/-! ## Elements -/

/-- Elements are made by the function of the wrapped allocator if and only if it has none of its own. -/
theorem construct_partial (a : Al) (h : wraps a = true) :
    (construct a = construct (.base (leaf a)) ↔ (leaf a).construct = none) ∧
    (destroy a = destroy (.base (leaf a)) ↔ (leaf a).destroy = none) := by
  have w : ∀ o : Option Nat, Way.plain = way o ↔ o = none := by intro o; cases o <;> simp [way]
  cases a with
  | base d => cases h
  | _ => exact ⟨w _, w _⟩

example : wraps (.limit true (.base small')) = true ∧ (leaf (.limit true (.base small'))).construct = none := by decide

/-- With an allocator that passes itself on to the elements (like `std::pmr::polymorphic_allocator` and `std::scoped_allocator_adaptor`), elements of a container
with the wrapper are made without it. -/
theorem construct_refuted : ∃ d : Decl, ∀ a ∈ [Al.limit true (.base d), .poly [] (.base d) [], .offset (.base d)],
    construct (.base d) = .byAllocator 7 ∧ construct a = .plain ∧ destroy (.base d) = .byAllocator 8 ∧ destroy a = .plain := ⟨small, by decide⟩

/-! ## Other elements, and copies of containers -/

/-- The constructor from a `limit_allocator` for other objects compiles if and only if both synchronize (or it is the copy constructor). -/
theorem limit_from (same src dst inner : Bool) :
    limitFrom same src dst inner = .ok ↔ (same = true ∧ src = dst) ∨ (src = true ∧ dst = true ∧ inner = true) := by
  cases same <;> cases src <;> cases dst <;> cases inner <;> simp [limitFrom]

/-- An allocator can be made for other objects if and only if all allocators it is made of can, and no `limit_allocator` is without synchronization. -/
theorem converts_partial (a : Al) :
    converts a = true ↔ (leaf a).converts = true ∧ (∀ d ∈ others a, d.converts = true) ∧ ∀ l ∈ limited a, l.1 = true := by
  induction a with
  | base d => simp [converts, leaf, others, limited]
  | limit s a ih =>
    simp only [converts, leaf, others, limited, beq_iff_eq, limit_from, List.mem_cons, forall_eq_or_imp]
    rw [ih]
    cases s <;> simp
  | poly bs a as ih =>
    simp only [converts, leaf, others, limited, Bool.and_eq_true, List.all_eq_true, List.mem_append]
    rw [ih]
    constructor
    · rintro ⟨⟨h1, h2, h3⟩, h4⟩
      exact ⟨h1, fun d hd => hd.elim (h4 d) (h2 d), h3⟩
    · rintro ⟨h1, h2, h3⟩
      exact ⟨⟨h1, fun d hd => h2 d (.inr hd), h3⟩, fun d hd => h2 d (.inl hd)⟩
  | offset a ih => simpa [converts, leaf, others, limited] using ih

example : converts (.poly [std] (.limit true (.base small)) []) = true := by decide

/-- `limit_allocator` without synchronization cannot be used for `std::list`, `std::map` and others that need memory for nodes, whatever is inside. -/
theorem converts_refuted (a : Al) : converts (.limit false a) = false ∧ limitFrom false false false (converts a) = .noConstructor ∧
    limitFrom false true false (converts a) = .broken := by
  simp [converts, limitFrom]

/-- Containers can be copied if and only if they can with the allocators it is made of, and those in `limit_allocator`s are default constructible. -/
theorem copies_partial (a : Al) :
    selects a = true ↔ (leaf a).selects = true ∧ (∀ d ∈ others a, d.selects = true) ∧ ∀ l ∈ limited a, defaultCtor l.2 = true := by
  induction a with
  | base d => simp [selects, leaf, others, limited]
  | limit s a ih =>
    simp only [selects, leaf, others, limited, Bool.and_eq_true, List.mem_cons, forall_eq_or_imp]
    rw [ih]
    constructor
    · rintro ⟨h0, h1, h2, h3⟩; exact ⟨h1, h2, h0, h3⟩
    · rintro ⟨h1, h2, h0, h3⟩; exact ⟨h0, h1, h2, h3⟩
  | poly bs a as ih =>
    simp only [selects, leaf, others, limited, Bool.and_eq_true, List.all_eq_true, List.mem_append]
    rw [ih]
    constructor
    · rintro ⟨⟨h1, h2, h3⟩, h4⟩
      exact ⟨h1, fun d hd => hd.elim (h4 d) (h2 d), h3⟩
    · rintro ⟨h1, h2, h3⟩
      exact ⟨⟨h1, fun d hd => h2 d (.inr hd), h3⟩, fun d hd => h2 d (.inl hd)⟩
  | offset a ih => simpa [selects, leaf, others, limited] using ih

example : selects (.limit true (.poly [] (.base std) [small])) = true := by decide

/-- Containers with a `limit_allocator` around a `limit_allocator` cannot be copied, nor with one around an allocator without default constructor. -/
theorem copies_refuted : (∀ s s' a, selects (.limit s (.limit s' a)) = false) ∧
    (∀ s d, d.defaultCtor = false → selects (.limit s (.base d)) = false) ∧ selects (.base small) = true ∧ small.defaultCtor = false := by
  refine ⟨fun s s' a => by simp [selects, defaultCtor], fun s d h => by simp [selects, defaultCtor, h], rfl, rfl⟩

/-! ## Traits -/

/-- What `same_type` gives: there are types, and all are this one. -/
theorem same_type {τ : Type} [DecidableEq τ] (ts : List τ) (t : τ) : sameType ts = some t ↔ ts ≠ [] ∧ ∀ x ∈ ts, x = t := by
  induction ts with
  | nil => simp [sameType]
  | cons t1 ts ih =>
    cases ts with
    | nil => simp [sameType]
    | cons t2 ts =>
      simp only [sameType]
      by_cases h : t1 = t2
      · subst h
        rw [if_pos rfl, ih]
        simp
      · rw [if_neg h]
        constructor
        · intro h; cases h
        · rintro ⟨_, h2⟩
          exact absurd ((h2 t1 (by simp)).trans (h2 t2 (by simp)).symm) h

example : sameType [3, 3, 3] = some 3 ∧ sameType [3, 4] = none := by decide

/-- `polymorphic_allocator` for one allocator has its pointers, propagation, equality and constructors; so have the other two, except for what is listed: `limit_allocator` is never
always equal and never default constructible, `offset_ptr_stl_allocator` has its own pointers. -/
theorem single (a : Al) :
    (ptr (.poly [] a []) = ptr a ∧ poc (.poly [] a []) = poc a ∧ always (.poly [] a []) = always a ∧ defaultCtor (.poly [] a []) = defaultCtor a ∧
      converts (.poly [] a []) = converts a ∧ selects (.poly [] a []) = selects a) ∧
    (∀ s, ptr (.limit s a) = ptr a ∧ bits (.limit s a) = bits a ∧ poc (.limit s a) = poc a ∧ always (.limit s a) = false ∧ defaultCtor (.limit s a) = false) ∧
    (poc (.offset a) = poc a ∧ always (.offset a) = always a ∧ defaultCtor (.offset a) = defaultCtor a ∧ converts (.offset a) = converts a ∧
      selects (.offset a) = selects a) := by
  refine ⟨⟨rfl, by simp [poc], rfl, rfl, by simp [converts], by simp [selects]⟩, fun s => ⟨rfl, rfl, rfl, rfl, rfl⟩, rfl, rfl, rfl, rfl, rfl⟩

/-- A class says that its objects are always equal, or says nothing and is empty. -/
def SaysEqual (d : Decl) : Prop := d.alwaysEqual = some true ∨ (d.alwaysEqual = none ∧ d.empty = true)

/-- `is_always_equal` is true exactly if it is for the allocator in use, and there is neither another one nor a limit. -/
theorem always_equal (a : Al) : always a = true ↔ SaysEqual (leaf a) ∧ others a = [] ∧ limited a = [] := by
  induction a with
  | base d =>
    simp only [always, Decl.always, SaysEqual, leaf, others, limited, and_true]
    cases h : d.alwaysEqual with
    | none => simp
    | some b => simp
  | limit s a => simp [always, limited]
  | poly bs a as ih =>
    cases bs with
    | cons b bs => cases as <;> simp [always, others]
    | nil =>
      cases as with
      | cons b bs => simp [always, others]
      | nil => simpa [always, leaf, others, limited] using ih
  | offset a ih => simpa [always, leaf, others, limited] using ih

example : always (.poly [] (.offset (.base std)) []) = true := by decide

/-- A `polymorphic_allocator` can be used if all its allocators have the same pointers, an `offset_ptr_stl_allocator` if the allocator inside has raw pointers; in particular it cannot be nested. -/
theorem well_formed (bs as : List Decl) (a : Al) :
    (wellFormed (.poly bs a as) = true ↔ wellFormed a = true ∧ ∀ d ∈ bs ++ as, d.ptr = ptr a) ∧
    (wellFormed (.offset a) = true ↔ wellFormed a = true ∧ ptr a = .raw) ∧ wellFormed (.offset (.offset a)) = false := by
  refine ⟨?_, by simp [wellFormed], by simp [wellFormed, ptr]⟩
  simp only [wellFormed, Bool.and_eq_true, Option.isSome_iff_exists, same_type]
  constructor
  · rintro ⟨h, t, _, ht⟩
    refine ⟨h, fun d hd => ?_⟩
    have h1 := ht (ptr a) (by simp)
    rw [h1]
    apply ht
    rcases List.mem_append.1 hd with hd | hd
    · exact List.mem_append_left _ (List.mem_map_of_mem hd)
    · exact List.mem_append_right _ (List.mem_cons_of_mem _ (List.mem_map_of_mem hd))
  · rintro ⟨h, hd⟩
    refine ⟨h, ptr a, by simp, fun x hx => ?_⟩
    simp only [List.mem_append, List.mem_map, List.mem_cons] at hx
    rcases hx with ⟨d, h1, rfl⟩ | rfl | ⟨d, h1, rfl⟩
    · exact hd d (List.mem_append_left _ h1)
    · rfl
    · exact hd d (List.mem_append_right _ h1)

example : wellFormed (.poly [std] (.limit true (.base small)) [small']) = true ∧ wellFormed (.poly [std] (.offset (.base small)) []) = false := by decide

/-- Made without arguments, a `polymorphic_allocator` holds its first allocator, so that one has to have a default constructor. -/
theorem default_first (b : Decl) (bs as : List Decl) (a : Al) :
    (defaultCtor (.poly (b :: bs) a as) = true ↔ b.defaultCtor = true) ∧ (defaultCtor (.poly [] a as) = true ↔ defaultCtor a = true) := ⟨Iff.rfl, Iff.rfl⟩

/-- An allocator is replaced by assigning or swapping containers only if the allocator in use wants that, and exactly if all others in the lists do so too. -/
theorem propagation (a : Al) :
    ((poc a).copy = true ↔ (leaf a).pocca = some true ∧ ∀ d ∈ others a, d.pocca = some true) ∧
    ((poc a).move = true ↔ (leaf a).pocma = some true ∧ ∀ d ∈ others a, d.pocma = some true) ∧
    ((poc a).swap = true ↔ (leaf a).pocs = some true ∧ ∀ d ∈ others a, d.pocs = some true) := by
  have hd : ∀ o : Option Bool, o.getD false = true ↔ o = some true := by
    intro o; rcases o with _ | _ | _ <;> simp
  simp only [← hd]
  change ((poc a).copy = true ↔ (leaf a).poc.copy = true ∧ ∀ d ∈ others a, d.poc.copy = true) ∧
    ((poc a).move = true ↔ (leaf a).poc.move = true ∧ ∀ d ∈ others a, d.poc.move = true) ∧
    ((poc a).swap = true ↔ (leaf a).poc.swap = true ∧ ∀ d ∈ others a, d.poc.swap = true)
  induction a with
  | base d => simp [poc, leaf, others]
  | limit s a ih => simpa [poc, leaf, others] using ih
  | poly bs a as ih =>
    obtain ⟨h1, h2, h3⟩ := ih
    simp only [poc, leaf, others, Bool.and_eq_true, List.all_eq_true, List.mem_append]
    rw [h1, h2, h3]
    refine ⟨?_, ?_, ?_⟩ <;>
    · constructor
      · rintro ⟨⟨h1, h2⟩, h4⟩
        exact ⟨h1, fun d hd => hd.elim (h4 d) (h2 d)⟩
      · rintro ⟨h1, h2⟩
        exact ⟨⟨h1, fun d hd => h2 d (.inr hd)⟩, fun d hd => h2 d (.inl hd)⟩
  | offset a ih => simpa [poc, leaf, others] using ih

/-- Two vectors whose allocators are of the same class and unequal may be swapped; with a `polymorphic_allocator` that could also hold a `std::allocator`, swapping them is undefined. -/
theorem swap_refuted : ∃ d : Decl, maySwap (poc (.base d)).swap false = true ∧
    maySwap (poc (.poly [] (.base d) [std])).swap false = false := ⟨small, by decide⟩

/-! ## Lookups -/

theorem nodup_inj {τ : Type} {l : List τ} (hd : l.Nodup) {i j : Nat} (hi : i < l.length) (hj : j < l.length) (h : l[i] = l[j]) : i = j := by
  have := List.pairwise_iff_getElem.1 hd
  rcases Nat.lt_trichotomy i j with h1 | h1 | h1
  · exact absurd h (this i j hi hj h1)
  · exact h1
  · exact absurd h.symm (this j i hj hi h1)

/-- `holds_allocator` answers whether the held allocator is of the class, for all classes of the list. -/
theorem holds {τ : Type} [DecidableEq τ] (types : List τ) (hd : types.Nodup) (held : Nat) (hh : held < types.length) (x : τ) (hx : x ∈ types) :
    holdsAllocator types held x = some (decide (types[held] = x)) := by
  match types, hd, hh, hx with
  | [t], _, hh, hx =>
    simp only [List.length_singleton, Nat.lt_one_iff] at hh
    subst hh
    simp [holdsAllocator, @eq_comm _ x t]
  | [t, u], hd, hh, hx =>
    simp only [List.mem_cons, List.not_mem_nil, or_false] at hx
    simp only [List.nodup_cons, List.mem_singleton, List.not_mem_nil, not_false_eq_true, List.nodup_nil, and_true] at hd
    have : held = 0 ∨ held = 1 := by simp only [List.length_cons, List.length_nil] at hh; omega
    rcases this with rfl | rfl <;> rcases hx with rfl | rfl
    · simp [holdsAllocator]
    · simp [holdsAllocator, hd, Ne.symm hd]
    · simp [holdsAllocator, Ne.symm hd]
    · simp [holdsAllocator, Ne.symm hd]
  | t :: u :: v :: ts, hd, hh, hx =>
    rw [holdsAllocator]
    · rw [if_pos (by rw [hd.count, if_pos hx]), Option.some_inj, Bool.eq_iff_iff, beq_iff_eq, decide_eq_true_eq]
      constructor
      · rintro rfl
        exact List.getElem_idxOf hh
      · rintro rfl
        have hi := List.idxOf_lt_length_iff.2 hx
        exact (nodup_inj hd hi hh (List.getElem_idxOf hi)).symm
    all_goals simp

example : holdsAllocator [3, 5, 7] 1 5 = some true ∧ holdsAllocator [3, 5, 7] 1 7 = some false ∧ holdsAllocator [3, 5] 1 5 = some true := by decide

/-- For other classes the answer is no for up to two allocators, and the call does not compile for more. -/
theorem holds_foreign {τ : Type} [DecidableEq τ] (types : List τ) (hn : types ≠ []) (held : Nat) (x : τ) (hx : x ∉ types) :
    holdsAllocator types held x = if types.length ≤ 2 then some false else none := by
  match types, hn, hx with
  | [t], _, hx => simp_all [holdsAllocator]
  | [t, u], _, hx => simp_all [holdsAllocator]
  | t :: u :: v :: ts, _, hx =>
    rw [holdsAllocator]
    · rw [List.count_eq_zero_of_not_mem hx]; simp
    all_goals simp

example : holdsAllocator [3, 5] 1 7 = some false ∧ holdsAllocator [3, 5, 6] 1 7 = none := by decide

end Verif.AllocIface
