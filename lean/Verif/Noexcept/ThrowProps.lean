import Verif.Noexcept.Props

/-!
# Which exceptions reach the caller

The other half of a `noexcept` clause: if the clause is false, an exception thrown by an operation on a user type leaves
the library function unchanged.  Each theorem says exactly when a call may end by throwing, in terms of the operations of
the user types that may throw (`t.quiet a = false`) and the situation of the call.  `Ty.Dtors`: no destructor throws.
-/
namespace Verif.Noexcept

/-! ### The channels and their iterators -/

/-- Putting an element in throws exactly if the channel is open (and, for `try_push`, has room) and the constructor used may throw. -/
theorem push_throws_iff (t : Ty) (hd : t.Dtors) (gone b : Bool) :
    (Runs t (chEmplaceArgs t gone b) .threw ↔ gone = false ∧ t.quiet (.args 0) = false) ∧
    (Runs t (chPushCopy t gone b) .threw ↔ gone = false ∧ t.quiet (.copyC 0) = false) ∧
    (Runs t (chPushMove t gone b) .threw ↔ gone = false ∧ t.quiet (.moveC 0) = false) ∧
    (Runs t (xEmplaceArgs t gone b) .threw ↔ gone = false ∧ t.quiet (.args 0) = false) ∧
    (Runs t (xPushCopy t gone b) .threw ↔ gone = false ∧ t.quiet (.copyC 0) = false) ∧
    (Runs t (xPushMove t gone b) .threw ↔ gone = false ∧ t.quiet (.moveC 0) = false) := by
  have h := hd 0
  simp only [runs_threw]
  refine ⟨?_, ?_, ?_, ?_, ?_, ?_⟩ <;> cases gone <;> cases b <;>
    simp +contextual [chEmplaceArgs, chPushCopy, chPushMove, chEmplace, xEmplaceArgs, xPushCopy, xPushMove, xEmplace,
      mayThrow, nac, ncc, nmc, h]

example : Runs (tyExcept [.copyC 0]) (chPushCopy (tyExcept [.copyC 0]) false true) .threw :=
  ((push_throws_iff _ (tyExcept_dtors _ _ (by simp)) false true).2.1).2 ⟨rfl, by decide⟩

/-- Taking an element out throws exactly if there is one and its move constructor may throw; iterating over a `channel` never
throws (it terminates, `channel_iterator_terminates_iff`), iterating over an `exchange_channel` throws like `pop`. -/
theorem pop_throws_iff (t : Ty) (hd : t.Dtors) (engaged empty : Bool) :
    (Runs t (chPop t empty) .threw ↔ empty = false ∧ t.quiet (.moveC 0) = false) ∧
    (Runs t (xPop t empty) .threw ↔ empty = false ∧ t.quiet (.moveC 0) = false) ∧
    ¬ Runs t (chItNext t engaged empty) .threw ∧ ¬ Runs t (chItBegin t empty) .threw ∧
    (Runs t (xItNext t engaged empty) .threw ↔ empty = false ∧ t.quiet (.moveC 0) = false) ∧
    (Runs t (xItBegin t empty) .threw ↔ empty = false ∧ t.quiet (.moveC 0) = false) := by
  have h := hd 0
  simp only [runs_threw]
  refine ⟨?_, ?_, ?_, ?_, ?_, ?_⟩ <;> cases empty <;> cases engaged <;> cases hm : t.quiet (.moveC 0) <;>
    simp [chPop, xPop, chItNext, chItBegin, xItNext, xItBegin, advanceBody, optAssign, mayThrow, nmc, h, hm]

example : Runs (tyExcept [.moveC 0]) (xItNext (tyExcept [.moveC 0]) true false) .threw :=
  ((pop_throws_iff _ (tyExcept_dtors _ _ (by simp)) true false).2.2.2.2.1).2 ⟨rfl, by decide⟩

/-- Copying and moving iterators: construction throws iff there is an element to construct from and its constructor may throw;
copy assignment iff the assignment of elements may throw and it, or the construction if this iterator holds none, is needed;
move assignment swaps: iff the swap of elements may throw and it, or a move construction if only one holds an element, is
needed. -/
theorem iterator_throws_iff (t : Ty) (hd : t.Dtors) (self other : Bool) :
    (Runs t (itCopy t other) .threw ↔ other = true ∧ t.quiet (.copyC 0) = false) ∧
    (Runs t (itMove t other) .threw ↔ other = true ∧ t.quiet (.moveC 0) = false) ∧
    (Runs t (itCopyAssign t self other) .threw ↔
      other = true ∧ t.quiet (.copyA 0) = false ∧ (self = true ∨ t.quiet (.copyC 0) = false)) ∧
    (Runs t (itMoveAssign t self other) .threw ↔
      t.quiet (.swp 0) = false ∧ ((self = true ∧ other = true) ∨ (self ≠ other ∧ t.quiet (.moveC 0) = false))) := by
  have h := hd 0
  simp only [runs_threw]
  refine ⟨?_, ?_, ?_, ?_⟩ <;> cases self <;> cases other <;>
    simp +contextual [itCopy, itMove, itCopyAssign, itMoveAssign, optCtor, optAssign, optSwap, mayThrow, ncc, nmc, nca, nsw, h]

example : Runs (tyExcept [.copyC 0, .copyA 0]) (itCopyAssign (tyExcept [.copyC 0, .copyA 0]) false true) .threw :=
  ((iterator_throws_iff _ (tyExcept_dtors _ _ (by simp)) false true).2.2.1).2 (by decide)

/-- Copy assignment of an iterator without any assumption on destructors: the operation it needs is the assignment of the elements
(both hold one), the construction (only the source does), the destruction (only this one does), and none at all otherwise.  If that
operation may throw the call may end badly: it throws if the assignment of elements may throw, and terminates the program if not. -/
theorem iterator_copy_assign_any (t : Ty) (self other : Bool) (need : Option Act)
    (hn : need = match self, other with
      | true, true => some (.copyA 0)
      | false, true => some (.copyC 0)
      | true, false => some (.dtor 0)
      | false, false => none) :
    (Runs t (itCopyAssign t self other) .threw ↔ ∃ a, need = some a ∧ t.quiet a = false ∧ t.quiet (.copyA 0) = false) ∧
    (Runs t (itCopyAssign t self other) .terminated ↔ ∃ a, need = some a ∧ t.quiet a = false ∧ t.quiet (.copyA 0) = true) := by
  subst hn
  simp only [runs_threw, runs_terminated]
  cases self <;> cases other <;> simp +contextual [itCopyAssign, optAssign, mayTerm, mayThrow, nca, and_comm]

/-- An iterator that holds an element is assigned from the end iterator; the destructor of the element is `noexcept(false)`. -/
example : Runs (tyExcept [.dtor 0]) (itCopyAssign (tyExcept [.dtor 0]) true false) .terminated :=
  ((iterator_copy_assign_any _ true false _ rfl).2).2 ⟨_, rfl, by decide⟩

/-! ### Allocators over one upstream allocator -/

/-- `limit_allocator` and `offset_ptr_stl_allocator`: the copy and the move constructor throw only if *both* may throw (their
clauses are exchanged), the other operations exactly if the operation of the upstream allocator may; comparison never throws,
it terminates. -/
theorem limit_throws_iff (t : Ty) (hd : t.Dtors) :
    (Runs t (limCopy t) .threw ↔ t.quiet (.copyC 0) = false ∧ t.quiet (.moveC 0) = false) ∧
    (Runs t (limMove t) .threw ↔ t.quiet (.copyC 0) = false ∧ t.quiet (.moveC 0) = false) ∧
    (Runs t (limCopyAssign t) .threw ↔ t.quiet (.copyA 0) = false) ∧
    (Runs t (limMoveAssign t) .threw ↔ t.quiet (.moveA 0) = false) ∧
    (Runs t (limConvert t) .threw ↔ t.quiet (.args 0) = false) ∧
    (Runs t (limSwap t) .threw ↔ t.quiet (.swp 0) = false) ∧
    ¬ Runs t (limEq t) .threw ∧ (Runs t (limEq t) .terminated ↔ t.quiet (.eq 0) = false) := by
  have h := hd 0
  simp only [runs_threw, runs_terminated]
  refine ⟨?_, ?_, ?_, ?_, ?_, ?_, ?_, ?_⟩ <;>
    simp +contextual [limCopy, limMove, limCopyAssign, limMoveAssign, limConvert, limSwap, limEq, mayThrow, mayTerm, nac,
      ncc, nmc, nca, nma, nsw, h, and_comm]

example : Runs (tyExcept [.eq 0]) (limEq (tyExcept [.eq 0])) .terminated :=
  (limit_throws_iff _ (tyExcept_dtors _ _ (by simp))).2.2.2.2.2.2.2.2 (by decide)

/-! ### `variant2` -/

theorem alt_two {i : Nat} (h : i < 2) : i = 0 ∨ i = 1 := by omega

/-- Constructors from a value: from an rvalue only if the copy may throw as well (the clause asks about the copy); in place only
if `T(args...)` and `T{args...}` both may. -/
theorem variant2_ctor_throws_iff (t : Ty) (hd : t.Dtors) (i : Nat) :
    (Runs t (vDefault t) .threw ↔ t.quiet (.dflt 0) = false) ∧
    (Runs t (vFromCopy t i) .threw ↔ t.quiet (.copyC i) = false) ∧
    (Runs t (vFromMove t i) .threw ↔ t.quiet (.copyC i) = false ∧ t.quiet (.moveC i) = false) ∧
    (Runs t (vInPlace t i) .threw ↔ t.quiet (.args i) = false ∧ t.quiet (.brace i) = false) := by
  have h := hd 0
  have hi := hd i
  simp only [runs_threw]
  refine ⟨?_, ?_, ?_, ?_⟩ <;>
    simp +contextual [vDefault, vFromCopy, vFromMove, vInPlace, mayThrow, ndc, nac, ncc, h, hi]

example : Runs (tyExcept [.args 1, .brace 1]) (vInPlace (tyExcept [.args 1, .brace 1]) 1) .threw :=
  ((variant2_ctor_throws_iff _ (tyExcept_dtors _ _ (by simp)) 1).2.2.2).2 (by decide)

/-- Copy and move construction of a `variant2` throw exactly if the constructor of the alternative held may; the destructor
exactly if the destructor of the alternative held may. -/
theorem variant2_copy_throws_iff (t : Ty) (hw : t.Wf) (o : Option Nat) (ho : Alt 2 o) :
    (Runs t (vCopy t o) .threw ↔ ∃ i, o = some i ∧ t.quiet (.copyC i) = false) ∧
    (Runs t (vMove t o) .threw ↔ ∃ i, o = some i ∧ t.quiet (.moveC i) = false) ∧
    (Runs t (vDtor t o) .threw ↔ ∃ i, o = some i ∧ t.quiet (.dtor i) = false) := by
  simp only [runs_threw]
  cases o with
  | none =>
    simp only [vCopy, vMove, vDtor, onAlt]
    refine ⟨?_, ?_, ?_⟩ <;> split <;> simp [mayThrow]
  | some i =>
    have hc := hw (.copyC i)
    have hm := hw (.moveC i)
    have hdt := hw (.dtor i)
    refine ⟨?_, ?_, ?_⟩ <;>
      · rcases alt_two (ho i rfl) with rfl | rfl <;> simp only [vCopy, vMove, vDtor, onAlt] <;> split <;>
          simp_all [mayThrow, both, ncc, nmc, nd]

example : Runs (tyExcept [.copyC 1]) (vCopy (tyExcept [.copyC 1]) (some 1)) .threw :=
  ((variant2_copy_throws_iff _ (by intro a h; simp [tyExcept] at h) (some 1) (by intro i h; cases h; decide)).1).2 ⟨1, rfl, by decide⟩

/-- What an assignment of variants needs: nothing if the source is valueless, the assignment `a` of the alternative if both
hold the same, its construction `c` otherwise. -/
def AssignFails (t : Ty) (c a : Nat → Act) (self other : Option Nat) : Prop :=
  ∃ j, other = some j ∧ ((self = some j ∧ t.quiet (a j) = false) ∨ (self ≠ some j ∧ t.quiet (c j) = false))

theorem assign_body_throws (t : Ty) (hd : t.Dtors) (c a : Nat → Act) (self other : Option Nat) :
    mayThrow t (vAssignBody c a self other) = true ↔ AssignFails t c a self other := by
  have h : ∀ i, t.quiet (.dtor i) = true := hd
  unfold vAssignBody AssignFails
  split
  · rename_i i j
    by_cases e : i = j
    · subst e; simp [mayThrow]
    · simp [mayThrow, e, h]
  · simp [mayThrow, h]
  · cases other <;> simp [onAlt, mayThrow]

/-- Assignment between variants throws exactly if the overload written out is selected (the alternatives are not all trivially
assignable) and the operation it needs may throw; assignment from a value exactly if the operation it needs may throw. -/
theorem variant2_assign_throws_iff (t : Ty) (hd : t.Dtors) (self other : Option Nat) (ho : Alt 2 other) (i : Nat) :
    (Runs t (vCopyAssign t self other) .threw ↔
      ¬ (t.triv (.copyA 0) = true ∧ t.triv (.copyA 1) = true) ∧ AssignFails t .copyC .copyA self other) ∧
    (Runs t (vMoveAssign t self other) .threw ↔
      ¬ (t.triv (.moveA 0) = true ∧ t.triv (.moveA 1) = true) ∧ AssignFails t .moveC .moveA self other) ∧
    (Runs t (vAssignCopyVal t i self) .threw ↔ AssignFails t .copyC .copyA self (some i)) ∧
    (Runs t (vAssignMoveVal t i self) .threw ↔ AssignFails t .moveC .moveA self (some i)) := by
  have h : ∀ i, t.quiet (.dtor i) = true := hd
  simp only [runs_threw]
  refine ⟨?_, ?_, ?_, ?_⟩
  · unfold vCopyAssign
    by_cases ht : both (fun i => t.triv (.copyA i)) = true
    · have := ht; simp [both] at this; simp [mayThrow, ht, this]
    · have hn : ¬ (t.triv (.copyA 0) = true ∧ t.triv (.copyA 1) = true) := by simpa [both] using ht
      simp only [mayThrow, if_neg ht, vCopyAssignSpec, Bool.and_eq_true, assign_body_throws t hd, hn, not_false_eq_true, true_and,
        Bool.not_eq_true', and_iff_right_iff_imp, Bool.or_eq_false_iff]
      rintro ⟨j, rfl, hj⟩
      refine ⟨by simpa using ht, ?_⟩
      rcases alt_two (ho j rfl) with rfl | rfl <;> rcases hj with ⟨_, hj⟩ | ⟨_, hj⟩ <;> simp [both, nca, ncc, nd, h, hj]
  · unfold vMoveAssign
    by_cases ht : both (fun i => t.triv (.moveA i)) = true
    · have := ht; simp [both] at this; simp [mayThrow, ht, this]
    · have hn : ¬ (t.triv (.moveA 0) = true ∧ t.triv (.moveA 1) = true) := by simpa [both] using ht
      simp only [mayThrow, if_neg ht, vMoveAssignSpec, Bool.and_eq_true, assign_body_throws t hd, hn, not_false_eq_true, true_and,
        Bool.not_eq_true', and_iff_right_iff_imp, Bool.or_eq_false_iff]
      rintro ⟨j, rfl, hj⟩
      refine ⟨by simpa using ht, ?_⟩
      rcases alt_two (ho j rfl) with rfl | rfl <;> rcases hj with ⟨_, hj⟩ | ⟨_, hj⟩ <;> simp [both, nma, nmc, nd, h, hj]
  · simp only [vAssignCopyVal, mayThrow, Bool.and_eq_true, assign_body_throws t hd, and_iff_right_iff_imp]
    rintro ⟨j, e, hj⟩
    cases e
    rcases hj with ⟨_, hj⟩ | ⟨_, hj⟩ <;> simp [nca, ncc, nd, h, hj]
  · simp only [vAssignMoveVal, mayThrow, Bool.and_eq_true, assign_body_throws t hd, and_iff_right_iff_imp]
    rintro ⟨j, e, hj⟩
    cases e
    rcases hj with ⟨_, hj⟩ | ⟨_, hj⟩ <;> simp [nma, nmc, nd, h, hj]

example : Runs (tyExcept [.copyC 1]) (vCopyAssign (tyExcept [.copyC 1]) (some 0) (some 1)) .threw :=
  ((variant2_assign_throws_iff _ (tyExcept_dtors _ _ (by simp)) (some 0) (some 1) (by intro i h; cases h; decide) 0).1).2
    ⟨by decide, 1, rfl, .inr ⟨by decide, by decide⟩⟩

/-- `swap` of two `variant2`s throws exactly if a move assignment of variants is not promised to be nothrow and one of the
three steps throws; comparison and hashing never throw. -/
theorem variant2_swap_throws_iff (t : Ty) (hd : t.Dtors) (l r : Option Nat) :
    (Runs t (vSwap t l r) .threw ↔
      (¬ (t.triv (.moveA 0) = true ∧ t.triv (.moveA 1) = true) ∧
        ∃ i, i < 2 ∧ (t.quiet (.moveA i) = false ∨ t.quiet (.moveC i) = false)) ∧
      (Runs t (vMove t l) .threw ∨ Runs t (vMoveAssign t l r) .threw ∨ Runs t (vMoveAssign t r l) .threw)) ∧
    ¬ Runs t (vEq t l r) .threw ∧ ¬ Runs t (vHash t l) .threw := by
  have h : ∀ i, t.quiet (.dtor i) = true := hd
  have hs : vMoveAssignSpec t = false ↔ (¬ (t.triv (.moveA 0) = true ∧ t.triv (.moveA 1) = true) ∧
        ∃ i, i < 2 ∧ (t.quiet (.moveA i) = false ∨ t.quiet (.moveC i) = false)) := by
    have e : (∃ i, i < 2 ∧ (t.quiet (.moveA i) = false ∨ t.quiet (.moveC i) = false)) ↔
        (t.quiet (.moveA 0) = false ∨ t.quiet (.moveC 0) = false) ∨ (t.quiet (.moveA 1) = false ∨ t.quiet (.moveC 1) = false) := by
      constructor
      · rintro ⟨i, hi, hx⟩
        rcases alt_two hi with rfl | rfl
        · exact .inl hx
        · exact .inr hx
      · rintro (hx | hx)
        · exact ⟨0, by decide, hx⟩
        · exact ⟨1, by decide, hx⟩
    rw [e]
    simp only [vMoveAssignSpec, both, nma, nd, nmc, h, Bool.and_true]
    cases t.triv (.moveA 0) <;> cases t.triv (.moveA 1) <;> cases t.quiet (.moveA 0) <;> cases t.quiet (.moveA 1) <;>
      cases t.quiet (.moveC 0) <;> cases t.quiet (.moveC 1) <;> simp
  simp only [runs_threw, ← hs]
  refine ⟨?_, ?_, ?_⟩
  · cases l <;> simp [vSwap, mayThrow, h]
  · simp [vEq, mayThrow]
  · simp [vHash, mayThrow]

example : Runs (tyExcept [.moveC 0]) (vSwap (tyExcept [.moveC 0]) (some 0) (some 1)) .threw :=
  ((variant2_swap_throws_iff _ (tyExcept_dtors _ _ (by simp)) (some 0) (some 1)).1).2
    ⟨⟨by decide, 0, by decide, .inr (by decide)⟩, .inl ((runs_threw _ _).2 (by decide))⟩

/-! ### `polymorphic_allocator` -/

theorem each_false {n : Nat} {f : Nat → Bool} : each n f = false ↔ ∃ i, i < n ∧ f i = false := by
  simp [each, List.all_eq_false]

/-- Constructors and forwarding operations of `polymorphic_allocator`: exactly if the operation of the allocator held may throw;
on a valueless one (`visit` throws), exactly if some allocator's operation may. -/
theorem polymorphic_throws_iff (t : Ty) (hd : t.Dtors) (n i : Nat) (hi : i < n) :
    (Runs t (paDefault t) .threw ↔ t.quiet (.dflt 0) = false) ∧
    (Runs t (paInPlace t n i) .threw ↔ t.quiet (.args i) = false ∧ (n ≤ 2 → t.quiet (.brace i) = false)) ∧
    (Runs t (paCopy t n (some i)) .threw ↔ t.quiet (.copyC i) = false) ∧
    (Runs t (paMove t n (some i)) .threw ↔ t.quiet (.moveC i) = false) ∧
    (Runs t (paConvert t n (some i)) .threw ↔ t.quiet (.args i) = false) ∧
    (Runs t (paAllocate t n (some i)) .threw ↔ t.quiet (.alloc i) = false) ∧
    (Runs t (paDeallocate t n (some i)) .threw ↔ t.quiet (.dealloc i) = false) ∧
    (Runs t (paConvert t n none) .threw ↔ ∃ k, k < n ∧ t.quiet (.args k) = false) ∧
    (Runs t (paAllocate t n none) .threw ↔ ∃ k, k < n ∧ t.quiet (.alloc k) = false) ∧
    (Runs t (paDeallocate t n none) .threw ↔ ∃ k, k < n ∧ t.quiet (.dealloc k) = false) ∧
    ¬ Runs t (paCopy t n none) .threw ∧ ¬ Runs t (paMove t n none) .threw ∧ ¬ Runs t (paDtor t n none) .threw := by
  have h : ∀ i, t.quiet (.dtor i) = true := hd
  have q : t.quiet .badAccess = false := rfl
  simp only [runs_threw]
  refine ⟨?_, ?_, ?_, ?_, ?_, ?_, ?_, ?_, ?_, ?_, ?_, ?_, ?_⟩
  · simp [paDefault, mayThrow, ndc, h]
  · unfold paInPlace
    by_cases h2 : n = 2
    · subst h2; simp +contextual [mayThrow, vInPlace, nac, h]
    · by_cases h1 : n = 1
      · subst h1; simp [mayThrow, nac, h]
      · have : ¬ n ≤ 2 := by omega
        simp [h2, h1, this, mayThrow, nac, h]
  · simp only [paCopy, onAlt, mayThrow, Bool.and_eq_true, Bool.not_eq_true', each_false, and_iff_right_iff_imp]
    exact fun e => ⟨i, hi, by simp [ncc, e]⟩
  · simp only [paMove, onAlt, mayThrow, Bool.and_eq_true, Bool.not_eq_true', each_false, and_iff_right_iff_imp]
    exact fun e => ⟨i, hi, by simp [nmc, e]⟩
  · simp only [paConvert, mayThrow, Bool.and_eq_true, Bool.not_eq_true', each_false, and_iff_right_iff_imp]
    exact fun e => ⟨i, hi, by simp [nac, e]⟩
  · simp only [paAllocate, mayThrow, Bool.and_eq_true, Bool.not_eq_true', each_false, and_iff_right_iff_imp]
    exact fun e => ⟨i, hi, e⟩
  · simp only [paDeallocate, mayThrow, Bool.and_eq_true, Bool.not_eq_true', each_false, and_iff_right_iff_imp]
    exact fun e => ⟨i, hi, e⟩
  · simp [paConvert, mayThrow, each_false, nac, h, q]
  · simp [paAllocate, mayThrow, each_false, q]
  · simp [paDeallocate, mayThrow, each_false, q]
  · simp [paCopy, mayThrow, onAlt]
  · simp [paMove, mayThrow, onAlt]
  · simp [paDtor, mayThrow, onAlt]

example : Runs (tyExcept [.args 1]) (paInPlace (tyExcept [.args 1]) 3 1) .threw :=
  ((polymorphic_throws_iff _ (tyExcept_dtors _ _ (by simp)) 3 1 (by decide)).2.1).2 ⟨by decide, by decide⟩

/-- The destructor throws exactly if the destructor of the allocator held may. -/
theorem polymorphic_dtor_throws_iff (t : Ty) (n i : Nat) (hi : i < n) :
    Runs t (paDtor t n (some i)) .threw ↔ t.quiet (.dtor i) = false := by
  simp only [runs_threw, paDtor, onAlt, mayThrow, Bool.and_eq_true, Bool.not_eq_true', each_false, and_iff_right_iff_imp]
  exact fun e => ⟨i, hi, e⟩

example : Runs (tyExcept [.dtor 1]) (paDtor (tyExcept [.dtor 1]) 2 (some 1)) .threw :=
  (polymorphic_dtor_throws_iff _ 2 1 (by decide)).2 (by decide)

theorem std_copy_throws (t : Ty) (hd : t.Dtors) (self other : Option Nat) :
    mayThrow t (svCopyAssign t self other) = true ↔ AssignFails t .copyC .copyA self other := by
  have h : ∀ i, t.quiet (.dtor i) = true := hd
  unfold svCopyAssign AssignFails
  split
  · rename_i i j
    by_cases e : i = j
    · subst e; simp [mayThrow]
    · simp only [e, if_false]
      cases hc : t.quiet (.copyC j) <;> cases hm : t.quiet (.moveC j) <;> simp [ncc, nmc, hc, hm, h, mayThrow, e]
  · rename_i j
    cases hc : t.quiet (.copyC j) <;> cases hm : t.quiet (.moveC j) <;> simp [ncc, nmc, hc, hm, h, mayThrow]
  · simp [mayThrow, h]
  · simp [mayThrow]

/-- Assignment of `polymorphic_allocator` throws exactly if the assignment of some allocator may throw (the clause asks only
about assignments) and the operation needed may throw — with two allocators (`variant2` inside) only if not both are
trivially assignable. -/
theorem polymorphic_assign_throws_iff (t : Ty) (hd : t.Dtors) (n : Nat) (self other : Option Nat) (ho : Alt n other) :
    (Runs t (paCopyAssign t n self other) .threw ↔
      (∃ k, k < n ∧ t.quiet (.copyA k) = false) ∧ AssignFails t .copyC .copyA self other ∧
      (n = 2 → ¬ (t.triv (.copyA 0) = true ∧ t.triv (.copyA 1) = true))) ∧
    (Runs t (paMoveAssign t n self other) .threw ↔
      (∃ k, k < n ∧ t.quiet (.moveA k) = false) ∧ AssignFails t .moveC .moveA self other ∧
      (n = 2 → ¬ (t.triv (.moveA 0) = true ∧ t.triv (.moveA 1) = true))) := by
  have h : ∀ i, t.quiet (.dtor i) = true := hd
  by_cases h2 : n = 2
  · subst h2
    obtain ⟨hc, hm, -⟩ := variant2_assign_throws_iff t hd self other ho 0
    simp only [runs_threw] at hc hm ⊢
    simp only [paCopyAssign, paMoveAssign, mayThrow, if_true, Bool.and_eq_true, Bool.not_eq_true', each_false, hc, hm, nca, nma,
      true_implies]
    exact ⟨and_congr_right fun _ => and_comm, and_congr_right fun _ => and_comm⟩
  · simp only [runs_threw, paCopyAssign, paMoveAssign, if_neg h2]
    simp only [mayThrow, Bool.and_eq_true, Bool.not_eq_true', each_false, std_copy_throws t hd, svMoveAssign,
      assign_body_throws t hd, nca, nma, nmc, h, Bool.true_and, Bool.and_true, h2, false_implies, and_true]
    exact ⟨trivial, and_congr_right fun ⟨k, hk, e⟩ => and_iff_right ⟨k, hk, by simp [e]⟩⟩

example : Runs (tyExcept [.copyA 0, .copyC 1]) (paCopyAssign (tyExcept [.copyA 0, .copyC 1]) 3 (some 0) (some 1)) .threw :=
  ((polymorphic_assign_throws_iff _ (tyExcept_dtors _ _ (by simp)) 3 (some 0) (some 1) (by intro i h; cases h; decide)).1).2
    ⟨⟨0, by decide, by decide⟩, ⟨1, rfl, .inr ⟨by decide, by decide⟩⟩, by decide⟩

/-- What a swap of two `std::variant`s needs: the swap of the alternative if both hold the same, moves otherwise. -/
def SwapFails (t : Ty) : Option Nat → Option Nat → Prop
  | some i, some j => (i = j ∧ t.quiet (.swp i) = false) ∨ (i ≠ j ∧ (t.quiet (.moveC i) = false ∨ t.quiet (.moveC j) = false))
  | some i, none => t.quiet (.moveC i) = false
  | none, some j => t.quiet (.moveC j) = false
  | none, none => False

theorem std_swap_throws (t : Ty) (hd : t.Dtors) (n : Nat) (l r : Option Nat) :
    mayThrow t (svSwap t n l r) = true ↔ svSwapSpec t n = false ∧ SwapFails t l r := by
  have h : ∀ i, t.quiet (.dtor i) = true := hd
  simp only [svSwap, mayThrow, Bool.and_eq_true, Bool.not_eq_true']
  refine and_congr_right fun _ => ?_
  match l, r with
  | some i, some j =>
    by_cases e : i = j
    · subst e; simp [mayThrow, SwapFails]
    · simp only [e, if_false, mayThrow, SwapFails, h]
      cases t.quiet (.moveC i) <;> cases t.quiet (.moveC j) <;> simp [e]
  | some i, none => simp [mayThrow, SwapFails, h]
  | none, some j => simp [mayThrow, SwapFails, h]
  | none, none => simp [mayThrow, SwapFails]

/-- `swap` of `polymorphic_allocator` over other than two allocators throws exactly if what it needs may throw (nothing is lost to
the clause); over two it is `swap` of `variant2`. -/
theorem polymorphic_swap_throws_iff (t : Ty) (n : Nat) (l r : Option Nat) (hl : Alt n l) (hr : Alt n r) :
    (n ≠ 2 → t.Dtors → (Runs t (paSwap t n l r) .threw ↔ SwapFails t l r)) ∧
    (Runs t (paSwap t 2 l r) .threw ↔ Runs t (vSwap t l r) .threw) := by
  constructor
  · intro h2 hd
    simp only [runs_threw, paSwap, if_neg h2, mayThrow, std_swap_throws t hd, Bool.and_eq_true, Bool.not_eq_true']
    have key : SwapFails t l r → svSwapSpec t n = false := by
      intro hf
      rw [svSwapSpec, each_false]
      match l, r, hl, hr, hf with
      | some i, some j, hl, hr, hf =>
        rcases hf with ⟨_, hf⟩ | ⟨_, hf | hf⟩
        · exact ⟨i, hl i rfl, by simp [nsw, hf]⟩
        · exact ⟨i, hl i rfl, by simp [nmc, hf]⟩
        · exact ⟨j, hr j rfl, by simp [nmc, hf]⟩
      | some i, none, hl, _, hf => exact ⟨i, hl i rfl, by simp [nmc, show t.quiet (.moveC i) = false from hf]⟩
      | none, some j, _, hr, hf => exact ⟨j, hr j rfl, by simp [nmc, show t.quiet (.moveC j) = false from hf]⟩
    exact ⟨fun hx => hx.2.2, fun hf => ⟨key hf, key hf, hf⟩⟩
  · simp only [runs_threw, paSwap, if_true, mayThrow, Bool.and_eq_true, Bool.not_eq_true', and_iff_right_iff_imp]
    unfold vSwap
    intro e
    simp only [mayThrow, Bool.and_eq_true, Bool.not_eq_true'] at e
    exact e.1

example : Runs (tyExcept [.moveC 2]) (paSwap (tyExcept [.moveC 2]) 3 (some 0) (some 2)) .threw :=
  ((polymorphic_swap_throws_iff _ 3 (some 0) (some 2) (by intro i h; cases h; decide) (by intro i h; cases h; decide)).1
    (by decide) (tyExcept_dtors _ _ (by simp))).2 (.inr ⟨by decide, .inr (by decide)⟩)

/-- Destroying the allocators in the middle of a swap: if a destructor throws while the temporary lives and the temporary's does
too, the program ends; `swap` of two `std::variant`s holding different alternatives destroys both. -/
theorem polymorphic_swap_destroys_both (t : Ty) (n i j : Nat) (hn : n ≠ 2) (hij : i ≠ j) (hi : i < n) (hj : j < n)
    (hm : ∀ k, t.quiet (.moveC k) = true) :
    (Runs t (paSwap t n (some i) (some j)) .threw ↔ t.quiet (.dtor i) = false ∨ t.quiet (.dtor j) = false) ∧
    (Runs t (paSwap t n (some i) (some j)) .terminated ↔ t.quiet (.dtor j) = false) := by
  have hs : svSwapSpec t n = false ↔ ∃ k, k < n ∧ (t.quiet (.dtor k) = false ∨ t.quiet (.swp k) = false) := by
    simp only [svSwapSpec, each_false, nmc, nsw, hm, Bool.true_and, Bool.and_eq_false_iff]
  have hi' : t.quiet (.dtor i) = false → svSwapSpec t n = false := fun hx => hs.2 ⟨i, hi, .inl hx⟩
  have hj' : t.quiet (.dtor j) = false → svSwapSpec t n = false := fun hx => hs.2 ⟨j, hj, .inl hx⟩
  simp only [runs_threw, runs_terminated, paSwap, if_neg hn, svSwap, if_neg hij, mayThrow, mayTerm, hm]
  cases e : svSwapSpec t n <;> cases ei : t.quiet (.dtor i) <;> cases ej : t.quiet (.dtor j) <;> simp_all

example : Runs (tyExcept [.dtor 1]) (paSwap (tyExcept [.dtor 1]) 3 (some 0) (some 1)) .terminated :=
  (polymorphic_swap_destroys_both _ 3 0 1 (by decide) (by decide) (by decide) (by decide) (by intro k; simp [tyExcept, Ty.quiet])).2.2
    (by decide)

/-! ### `inplace_polymorphic`, `mutex`, guards -/

/-- `inplace_polymorphic`: what the class's constructor, `copy_to` or `move_to` throws reaches the caller; a throwing destructor
never does. -/
theorem inplace_throws_iff (t : Ty) (hd : t.Dtors) (self other : Option Nat) (i : Nat) :
    (Runs t (ipDefault t) .threw ↔ t.quiet (.dflt 0) = false) ∧
    (Runs t (ipInPlace t i) .threw ↔ t.quiet (.args i) = false ∧ t.quiet (.brace i) = false) ∧
    (Runs t (ipEmplace t i self) .threw ↔ t.quiet (.args i) = false ∧ t.quiet (.brace i) = false) ∧
    (Runs t (ipCopyAssign t self other) .threw ↔ other ≠ none ∧ t.quiet .copyTo = false) ∧
    (Runs t (ipMoveAssign t self other) .threw ↔ other ≠ none ∧ t.quiet .moveTo = false) := by
  have h : ∀ i, t.quiet (.dtor i) = true := hd
  simp only [runs_threw]
  refine ⟨?_, ?_, ?_, ?_, ?_⟩ <;> cases self <;> cases other <;>
    simp +contextual [ipDefault, ipInPlace, ipEmplace, ipCopyAssign, ipMoveAssign, ipDrop, onAlt, mayThrow, ndc, nac, h]

example : Runs (tyExcept [.copyTo]) (ipCopyAssign (tyExcept [.copyTo]) (some 1) (some 0)) .threw :=
  ((inplace_throws_iff _ (tyExcept_dtors _ _ (by simp)) (some 1) (some 0) 0).2.2.2.1).2 (by decide)

theorem inplace_drop_outcomes (t : Ty) (o : Option Nat) :
    ¬ Runs t (ipDrop t o) .threw ∧ (Runs t (ipDrop t o) .terminated ↔ ∃ i, o = some i ∧ t.quiet (.dtor i) = false) := by
  simp only [runs_threw, runs_terminated]
  cases o <;> simp [ipDrop, onAlt, mayThrow, mayTerm]

example : Runs (tyExcept [.dtor 1]) (ipDrop (tyExcept [.dtor 1]) (some 1)) .terminated :=
  (inplace_drop_outcomes _ (some 1)).2.2 ⟨1, rfl, by decide⟩

/-- The constructors of `mutex` and `shared_mutex` throw exactly if the construction of the value may throw — in place: if
`T(args...)` may and `T{args...}` or the mutex's constructor may. -/
theorem mutex_ctor_throws_iff (t : Ty) (hd : t.Dtors) :
    (Runs t (mtxDefault t) .threw ↔ t.quiet (.dflt 0) = false) ∧
    (Runs t (mtxFromCopy t) .threw ↔ t.quiet (.copyC 0) = false) ∧
    (Runs t (mtxFromMove t) .threw ↔ t.quiet (.moveC 0) = false) ∧
    (Runs t (mtxInPlace t) .threw ↔ t.quiet (.args 0) = false ∧ (t.quiet (.brace 0) = false ∨ t.quiet (.dflt 1) = false)) := by
  have h := hd 0
  simp only [runs_threw]
  refine ⟨?_, ?_, ?_, ?_⟩ <;>
    simp +contextual [mtxDefault, mtxFromCopy, mtxFromMove, mtxInPlace, mtxCtor, mayThrow, ndc, ncc, nmc, nac, h]

example : Runs (tyExcept [.args 0, .dflt 1]) (mtxInPlace (tyExcept [.args 0, .dflt 1])) .threw :=
  ((mutex_ctor_throws_iff _ (tyExcept_dtors _ _ (by simp))).2.2.2).2 (by decide)

/-- Making a scope guard throws exactly if moving (copying) the function object may. -/
theorem guard_ctor_throws_iff (t : Ty) (hd : t.Dtors) :
    (Runs t (guardMove t) .threw ↔ t.quiet (.moveC 0) = false) ∧ (Runs t (guardCopy t) .threw ↔ t.quiet (.copyC 0) = false) := by
  have h := hd 0
  simp only [runs_threw]
  refine ⟨?_, ?_⟩ <;> simp [guardMove, guardCopy, mayThrow, nmc, ncc, h]

example : Runs (tyExcept [.copyC 0]) (guardCopy (tyExcept [.copyC 0])) .threw :=
  ((guard_ctor_throws_iff _ (tyExcept_dtors _ _ (by simp))).2).2 (by decide)

/-! ### `integral_template_variant` -/

/-- `integral_template_variant`: constructors from values and moves throw exactly if the operation may; the copy constructor
never throws — it terminates; copy assignment throws exactly if the operation needed may and not everything is trivial. -/
theorem integral_variant_throws_iff (t : Ty) (hd : t.Dtors) (n : Nat) (self other : Option Nat) (ho : Alt n other) (i : Nat) :
    (Runs t (itvFromCopy t i) .threw ↔ t.quiet (.copyC i) = false) ∧
    (Runs t (itvFromMove t i) .threw ↔ t.quiet (.moveC i) = false) ∧
    (Runs t (itvInPlace t i) .threw ↔ t.quiet (.args i) = false) ∧
    ¬ Runs t (itvCopy t other) .threw ∧
    (Runs t (itvMove t n other) .threw ↔ ∃ k, other = some k ∧ t.quiet (.moveC k) = false) ∧
    (Runs t (itvCopyAssign t n self other) .threw ↔ AssignFails t .copyC .copyA self other ∧
      ∃ k, k < n ∧ ¬ (t.triv (.copyA k) = true ∧ t.triv (.copyC k) = true ∧ t.triv (.dtor k) = true)) ∧
    (Runs t (itvMoveAssign t n self other) .threw ↔ AssignFails t .moveC .moveA self other) := by
  have h : ∀ i, t.quiet (.dtor i) = true := hd
  simp only [runs_threw]
  refine ⟨?_, ?_, ?_, ?_, ?_, ?_, ?_⟩
  · simp [itvFromCopy, mayThrow, ncc, h]
  · simp [itvFromMove, mayThrow, nmc, h]
  · simp [itvInPlace, mayThrow, nac, h]
  · simp [itvCopy, mayThrow]
  · cases other with
    | none => simp [itvMove, onAlt, mayThrow]
    | some k =>
      simp only [itvMove, onAlt, mayThrow, Bool.and_eq_true, Bool.not_eq_true', each_false, Option.some.injEq, exists_eq_left',
        and_iff_right_iff_imp]
      exact fun e => ⟨k, ho k rfl, by simp [nmc, e]⟩
  · unfold itvCopyAssign
    by_cases ht : each n (fun i => t.triv (.copyA i) && t.triv (.copyC i) && t.triv (.dtor i)) = true
    · rw [if_pos ht]
      simp only [mayThrow, Bool.not_true, Bool.false_and, Bool.false_eq_true, false_iff]
      rintro ⟨-, k, hk, hn⟩
      have := each_at ht hk
      simp only [Bool.and_eq_true] at this
      exact hn ⟨this.1.1, this.1.2, this.2⟩
    · rw [if_neg ht]
      simp only [mayThrow, Bool.not_false, Bool.true_and, std_copy_throws t hd]
      refine ⟨fun hx => ⟨hx, ?_⟩, fun hx => hx.1⟩
      obtain ⟨k, hk, e⟩ := each_false.1 (by simpa using ht)
      refine ⟨k, hk, fun ⟨a, b, c⟩ => by simp [a, b, c] at e⟩
  · simp only [itvMoveAssign, svMoveAssign, mayThrow, Bool.and_eq_true, Bool.not_eq_true', each_false, assign_body_throws t hd]
    refine ⟨fun hx => hx.2.2, fun hx => ?_⟩
    have : ∃ k, k < n ∧ (nmc t k && nma t k) = false := by
      obtain ⟨j, rfl, hj⟩ := hx
      exact ⟨j, ho j rfl, by rcases hj with ⟨_, hj⟩ | ⟨_, hj⟩ <;> simp [nmc, nma, hj]⟩
    exact ⟨this, this, hx⟩

example : Runs (tyExcept [.moveC 1]) (itvMoveAssign (tyExcept [.moveC 1]) 4 (some 0) (some 1)) .threw :=
  ((integral_variant_throws_iff _ (tyExcept_dtors _ _ (by simp)) 4 (some 0) (some 1) (by intro i h; cases h; decide) 0).2.2.2.2.2.2).2
    ⟨1, rfl, .inr ⟨by decide, by decide⟩⟩

end Verif.Noexcept
