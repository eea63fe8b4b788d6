import Verif.Noexcept.Model

/-!
# Which `noexcept` promises hold

`t` ranges over everything the user types may declare; the conclusion `¬ Runs t f .terminated` says that no execution of
`f` is turned into `std::terminate`, whichever operations throw.  `Ty.Dtors` (no destructor throws) is assumed only
where the clause does not already ask for it.
-/
namespace Verif.Noexcept

/-! ### Deciding the outcomes of a body -/

/-- Can an exception leave `p`? -/
def mayThrow (t : Ty) : Prog → Bool
  | .skip => false
  | .act a => !t.quiet a
  | .seq p q => mayThrow t p || mayThrow t q
  | .call b p => !b && mayThrow t p
  | .within p d => mayThrow t p || !t.quiet d
  | .cleanup p _ => mayThrow t p

/-- Can `p` terminate the program? -/
def mayTerm (t : Ty) : Prog → Bool
  | .skip => false
  | .act _ => false
  | .seq p q => mayTerm t p || mayTerm t q
  | .call b p => mayTerm t p || (b && mayThrow t p)
  | .within p d => mayTerm t p || (mayThrow t p && !t.quiet d)
  | .cleanup p d => mayTerm t p || (mayThrow t p && !t.quiet d)

theorem runs_done (t : Ty) : ∀ p : Prog, Runs t p .done
  | .skip => .skip
  | .act a => .ok a
  | .seq p q => .seq (runs_done t p) (runs_done t q)
  | .call _ p => .call (runs_done t p) (by simp)
  | .within p d => .leave (runs_done t p) (.ok d)
  | .cleanup p _ => .keep (runs_done t p)

theorem runs_threw (t : Ty) (p : Prog) : Runs t p .threw ↔ mayThrow t p = true := by
  induction p with
  | skip => exact ⟨fun h => (by cases h), fun h => (by simp [mayThrow] at h)⟩
  | act a =>
    refine ⟨fun h => ?_, fun h => .throws (by simpa [mayThrow] using h)⟩
    cases h with | throws h => simp [mayThrow, h]
  | seq p q ihp ihq =>
    simp only [mayThrow, Bool.or_eq_true]
    constructor
    · intro h
      cases h with
      | seq h1 h2 => exact .inr (ihq.1 h2)
      | stop h1 _ => exact .inl (ihp.1 h1)
    · rintro (h | h)
      · exact .stop (ihp.2 h) (by simp)
      · exact .seq (runs_done t p) (ihq.2 h)
  | call b p ih =>
    simp only [mayThrow, Bool.and_eq_true, Bool.not_eq_true']
    constructor
    · intro h
      cases h with | call h1 h2 => exact ⟨h2 rfl, ih.1 h1⟩
    · rintro ⟨hb, h⟩
      exact .call (ih.2 h) (fun _ => hb)
  | within p d ih =>
    simp only [mayThrow, Bool.or_eq_true, Bool.not_eq_true']
    constructor
    · intro h
      cases h with
      | leave h1 h2 => cases h2 with | throws h => exact .inr h
      | unwind h1 => exact .inl (ih.1 h1)
    · rintro (h | h)
      · exact .unwind (ih.2 h)
      · exact .leave (runs_done t p) (.throws h)
  | cleanup p d ih =>
    simp only [mayThrow]
    constructor
    · intro h
      cases h with | keep h1 => exact ih.1 h1
    · exact fun h => .keep (ih.2 h)

/-- The computable test decides termination. -/
theorem runs_terminated (t : Ty) (p : Prog) : Runs t p .terminated ↔ mayTerm t p = true := by
  induction p with
  | skip => exact ⟨fun h => (by cases h), fun h => (by simp [mayTerm] at h)⟩
  | act a => exact ⟨fun h => (by cases h), fun h => (by simp [mayTerm] at h)⟩
  | seq p q ihp ihq =>
    simp only [mayTerm, Bool.or_eq_true]
    constructor
    · intro h
      cases h with
      | seq h1 h2 => exact .inr (ihq.1 h2)
      | stop h1 _ => exact .inl (ihp.1 h1)
    · rintro (h | h)
      · exact .stop (ihp.2 h) (by simp)
      · exact .seq (runs_done t p) (ihq.2 h)
  | call b p ih =>
    simp only [mayTerm, Bool.or_eq_true, Bool.and_eq_true]
    constructor
    · intro h
      cases h with
      | call h1 _ => exact .inl (ih.1 h1)
      | escape h1 => exact .inr ⟨rfl, (runs_threw t p).1 h1⟩
    · rintro (h | ⟨rfl, h⟩)
      · exact .call (ih.2 h) (by simp)
      · exact .escape ((runs_threw t p).2 h)
  | within p d ih =>
    simp only [mayTerm, Bool.or_eq_true, Bool.and_eq_true, Bool.not_eq_true']
    constructor
    · intro h
      cases h with
      | leave h1 h2 => cases h2
      | unwindThrows h1 h2 => exact .inr ⟨(runs_threw t p).1 h1, h2⟩
      | abort h1 => exact .inl (ih.1 h1)
    · rintro (h | ⟨h1, h2⟩)
      · exact .abort (ih.2 h)
      · exact .unwindThrows ((runs_threw t p).2 h1) h2
  | cleanup p d ih =>
    simp only [mayTerm, Bool.or_eq_true, Bool.and_eq_true, Bool.not_eq_true']
    constructor
    · intro h
      cases h with
      | keep h1 => exact .inl (ih.1 h1)
      | cleanupThrows h1 h2 => exact .inr ⟨(runs_threw t p).1 h1, h2⟩
    · rintro (h | ⟨h1, h2⟩)
      · exact .keep (ih.2 h)
      · exact .cleanupThrows ((runs_threw t p).2 h1) h2

theorem not_runs_terminated (t : Ty) (p : Prog) : ¬ Runs t p .terminated ↔ mayTerm t p = false := by
  rw [runs_terminated]; simp

theorem each_at {n : Nat} {f : Nat → Bool} (h : each n f = true) {i : Nat} (hi : i < n) : f i = true := by
  simp only [each, List.all_eq_true, List.mem_range] at h
  exact h i hi

/-- A valid alternative of a variant with `n` alternatives. -/
def Alt (n : Nat) (o : Option Nat) : Prop := ∀ i, o = some i → i < n

/-! ### Witness types -/

/-- Everything is `noexcept` except the listed operations; nothing is trivial except the second list. -/
def tyExcept (bad : List Act) (triv : List Act := []) : Ty :=
  { decl := fun a => !bad.contains a, triv := fun a => triv.contains a }

theorem tyExcept_dtors (bad triv : List Act) (h : ∀ i, Act.dtor i ∉ bad) : (tyExcept bad triv).Dtors := by
  intro i
  simp [tyExcept, Ty.quiet, h i]

/-! ### `channel` -/

/-- `push`, `emplace` and their `try_` versions: terminated exactly when the element constructor is declared nothrow and the
deque needs memory. -/
theorem channel_emplace_terminates_iff (t : Ty) (gone grow : Bool) :
    (Runs t (chEmplaceArgs t gone grow) .terminated ↔ nac t 0 = true ∧ gone = false ∧ grow = true) ∧
    (Runs t (chPushCopy t gone grow) .terminated ↔ ncc t 0 = true ∧ gone = false ∧ grow = true) ∧
    (Runs t (chPushMove t gone grow) .terminated ↔ nmc t 0 = true ∧ gone = false ∧ grow = true) := by
  simp only [runs_terminated]
  refine ⟨?_, ?_, ?_⟩ <;> cases gone <;> cases grow <;>
    simp +contextual [chEmplaceArgs, chPushCopy, chPushMove, chEmplace, mayTerm, mayThrow, nac, ncc, nmc, Ty.quiet]

/-- Without memory pressure no `push` or `emplace` terminates the program. -/
theorem channel_emplace_partial (t : Ty) (gone : Bool) :
    ¬ Runs t (chEmplaceArgs t gone false) .terminated ∧ ¬ Runs t (chPushCopy t gone false) .terminated ∧
    ¬ Runs t (chPushMove t gone false) .terminated := by
  obtain ⟨h1, h2, h3⟩ := channel_emplace_terminates_iff t gone false
  exact ⟨fun h => by simpa using (h1.1 h).2.2, fun h => by simpa using (h2.1 h).2.2, fun h => by simpa using (h3.1 h).2.2⟩

/-- The promise of `push` is refuted: an `int`-like element, and memory runs out. -/
theorem channel_push_refuted : ∃ t : Ty, t.Wf ∧ t.Dtors ∧ (∀ i, t.quiet (.copyC i) = true) ∧
    Runs t (chPushCopy t false true) .terminated :=
  ⟨tyExcept [], by intro a h; simp [tyExcept] at h, tyExcept_dtors _ _ (by simp), by simp [tyExcept, Ty.quiet],
    (runs_terminated _ _).2 (by decide)⟩

/-- `pop` and `try_pop` of both channels keep their promise if destructors do not throw. -/
theorem pop_noexcept (t : Ty) (hd : t.Dtors) (empty : Bool) :
    ¬ Runs t (chPop t empty) .terminated ∧ ¬ Runs t (xPop t empty) .terminated := by
  have h := hd 0
  simp only [not_runs_terminated]
  cases empty <;> simp [chPop, xPop, mayTerm, mayThrow, nmc, h]

example : ¬ Runs (tyExcept [.moveC 0]) (chPop (tyExcept [.moveC 0]) false) .terminated :=
  (pop_noexcept _ (tyExcept_dtors _ _ (by simp)) false).1

/-- Advancing an iterator of `channel` (and `begin()`) terminates the program exactly if an element is there and its move
construction, or — when the iterator already holds an element — its move assignment, may throw. -/
theorem channel_iterator_terminates_iff (t : Ty) (hd : t.Dtors) (engaged empty : Bool) :
    (Runs t (chItNext t engaged empty) .terminated ↔
      empty = false ∧ (t.quiet (.moveC 0) = false ∨ (engaged = true ∧ t.quiet (.moveA 0) = false))) ∧
    (Runs t (chItBegin t empty) .terminated ↔ empty = false ∧ t.quiet (.moveC 0) = false) := by
  have h := hd 0
  simp only [runs_terminated]
  refine ⟨?_, ?_⟩ <;> cases empty <;> (try cases engaged) <;>
    simp [chItBegin, chItNext, advanceBody, optAssign, chPop, mayTerm, mayThrow, nmc, h] <;>
    cases t.quiet (.moveC 0) <;> simp

/-- A range-for over a channel of elements with a throwing move constructor can terminate the program. -/
theorem channel_iterator_refuted : ∃ t : Ty, t.Wf ∧ t.Dtors ∧ Runs t (chItBegin t false) .terminated :=
  ⟨tyExcept [.moveC 0], by intro a h; simp [tyExcept] at h, tyExcept_dtors _ _ (by simp), (runs_terminated _ _).2 (by decide)⟩

/-! ### Iterators of both channels -/

/-- Copy and move construction of an iterator keep their promise, for every element type. -/
theorem iterator_copy_noexcept (t : Ty) (other : Bool) :
    ¬ Runs t (itCopy t other) .terminated ∧ ¬ Runs t (itMove t other) .terminated := by
  simp only [not_runs_terminated]
  cases other <;> simp [itCopy, itMove, optCtor, mayTerm, mayThrow, ncc, nmc] <;> exact ⟨fun h _ => h, fun h _ => h⟩

/-- Copy assignment of an iterator terminates exactly if copy assignment of the element is nothrow, copy construction is
not, and a full iterator is assigned to an empty one (destructors do not throw). -/
theorem iterator_copy_assign_terminates_iff (t : Ty) (hd : t.Dtors) (self other : Bool) :
    Runs t (itCopyAssign t self other) .terminated ↔
      t.quiet (.copyA 0) = true ∧ t.quiet (.copyC 0) = false ∧ self = false ∧ other = true := by
  have h := hd 0
  rw [runs_terminated]
  cases self <;> cases other <;> simp +contextual [itCopyAssign, optAssign, mayTerm, mayThrow, nca, h]

/-- Move assignment of an iterator terminates exactly if `swap` of the element is nothrow, its move constructor is not, and
exactly one of the two iterators holds an element. -/
theorem iterator_move_assign_terminates_iff (t : Ty) (hd : t.Dtors) (self other : Bool) :
    Runs t (itMoveAssign t self other) .terminated ↔
      t.quiet (.swp 0) = true ∧ t.quiet (.moveC 0) = false ∧ self ≠ other := by
  have h := hd 0
  rw [runs_terminated]
  cases self <;> cases other <;> simp [itMoveAssign, optSwap, mayTerm, mayThrow, nsw, nmc, h] <;>
    cases t.quiet (.swp 0) <;> cases t.quiet (.moveC 0) <;> simp

/-- Both assignments of the iterators break their promise for some element type. -/
theorem iterator_assign_refuted :
    (∃ t : Ty, t.Wf ∧ t.Dtors ∧ Runs t (itCopyAssign t false true) .terminated) ∧
    (∃ t : Ty, t.Wf ∧ t.Dtors ∧ Runs t (itMoveAssign t true false) .terminated) :=
  ⟨⟨tyExcept [.copyC 0], by intro a h; simp [tyExcept] at h, tyExcept_dtors _ _ (by simp), (runs_terminated _ _).2 (by decide)⟩,
   ⟨tyExcept [.moveC 0], by intro a h; simp [tyExcept] at h, tyExcept_dtors _ _ (by simp), (runs_terminated _ _).2 (by decide)⟩⟩

/-! ### `exchange_channel` -/

/-- `emplace` and `push` keep their promise, for every element type. -/
theorem exchange_emplace_noexcept (t : Ty) (gone full : Bool) :
    ¬ Runs t (xEmplaceArgs t gone full) .terminated ∧ ¬ Runs t (xPushCopy t gone full) .terminated ∧
    ¬ Runs t (xPushMove t gone full) .terminated := by
  simp only [not_runs_terminated]
  refine ⟨?_, ?_, ?_⟩ <;> cases gone <;> cases full <;>
    simp +contextual [xEmplaceArgs, xPushCopy, xPushMove, xEmplace, mayTerm, mayThrow, nac, ncc, nmc]

/-- Advancing an iterator terminates exactly if the move constructor is nothrow, move assignment is not, and the iterator
holds an element while another one is there; `begin()` never does. -/
theorem exchange_iterator_terminates_iff (t : Ty) (hd : t.Dtors) (engaged empty : Bool) :
    (Runs t (xItNext t engaged empty) .terminated ↔
      t.quiet (.moveC 0) = true ∧ t.quiet (.moveA 0) = false ∧ engaged = true ∧ empty = false) ∧
    ¬ Runs t (xItBegin t empty) .terminated := by
  have h := hd 0
  rw [not_runs_terminated, runs_terminated]
  refine ⟨?_, ?_⟩ <;> cases empty <;> (try cases engaged) <;>
    simp [xItBegin, xItNext, advanceBody, optAssign, xPop, mayTerm, mayThrow, nmc, h] <;>
    cases t.quiet (.moveC 0) <;> simp

/-- The promise of `operator++` is refuted. -/
theorem exchange_iterator_refuted : ∃ t : Ty, t.Wf ∧ t.Dtors ∧ Runs t (xItNext t true false) .terminated :=
  ⟨tyExcept [.moveA 0], by intro a h; simp [tyExcept] at h, tyExcept_dtors _ _ (by simp), (runs_terminated _ _).2 (by decide)⟩

/-! ### `limit_allocator`, `offset_ptr_stl_allocator` -/

/-- Assignment, rebinding and `swap` keep their promise. -/
theorem limit_noexcept (t : Ty) :
    ¬ Runs t (limCopyAssign t) .terminated ∧ ¬ Runs t (limMoveAssign t) .terminated ∧
    ¬ Runs t (limConvert t) .terminated ∧ ¬ Runs t (limSwap t) .terminated := by
  simp only [not_runs_terminated]
  simp [limCopyAssign, limMoveAssign, limConvert, limSwap, mayTerm, mayThrow, nca, nma, nac, nsw]
  exact fun h _ => h

/-- The copy constructor terminates exactly if the upstream allocator copies with and moves without exceptions; the move
constructor exactly if it is the other way round; and each loses the promise it could make. -/
theorem limit_copy_terminates_iff (t : Ty) (hd : t.Dtors) :
    (Runs t (limCopy t) .terminated ↔ t.quiet (.moveC 0) = true ∧ t.quiet (.copyC 0) = false) ∧
    (Runs t (limMove t) .terminated ↔ t.quiet (.copyC 0) = true ∧ t.quiet (.moveC 0) = false) := by
  have h := hd 0
  simp [runs_terminated, limCopy, limMove, mayTerm, mayThrow, nmc, ncc, h]

/-- Both promises are refuted. -/
theorem limit_copy_refuted :
    (∃ t : Ty, t.Wf ∧ t.Dtors ∧ Runs t (limCopy t) .terminated) ∧ (∃ t : Ty, t.Wf ∧ t.Dtors ∧ Runs t (limMove t) .terminated) :=
  ⟨⟨tyExcept [.copyC 0], by intro a h; simp [tyExcept] at h, tyExcept_dtors _ _ (by simp), (runs_terminated _ _).2 (by decide)⟩,
   ⟨tyExcept [.moveC 0], by intro a h; simp [tyExcept] at h, tyExcept_dtors _ _ (by simp), (runs_terminated _ _).2 (by decide)⟩⟩

/-- An upstream allocator that moves without exceptions but copies with them gets a move constructor that may throw
according to its declaration: a caller who asks `is_nothrow_move_constructible` is told no. -/
theorem limit_move_pessimistic : ∃ t : Ty, t.Wf ∧ t.Dtors ∧ t.quiet (.moveC 0) = true ∧ limMove t = .call false (.act (.moveC 0)) :=
  ⟨tyExcept [.copyC 0], by intro a h; simp [tyExcept] at h, tyExcept_dtors _ _ (by simp), by decide,
    by simp [limMove, ncc, tyExcept, Ty.quiet]⟩

/-! ### `variant2` -/

/-- The special members, and assignment from values, keep their promise (two alternatives; trivial operations are
`noexcept`). -/
theorem variant2_noexcept (t : Ty) (l r : Option Nat) (hl : Alt 2 l) (hr : Alt 2 r) (i : Nat) (hi : i < 2) :
    ¬ Runs t (vDefault t) .terminated ∧ ¬ Runs t (vFromCopy t i) .terminated ∧ ¬ Runs t (vCopy t r) .terminated ∧
    ¬ Runs t (vMove t r) .terminated ∧ ¬ Runs t (vDtor t l) .terminated ∧ ¬ Runs t (vCopyAssign t l r) .terminated ∧
    ¬ Runs t (vMoveAssign t l r) .terminated ∧ ¬ Runs t (vAssignCopyVal t i l) .terminated ∧
    ¬ Runs t (vAssignMoveVal t i l) .terminated := by
  have cases2 : ∀ {o : Option Nat}, Alt 2 o → o = none ∨ o = some 0 ∨ o = some 1 := by
    intro o ho
    match o, ho with
    | none, _ => exact .inl rfl
    | some 0, _ => exact .inr (.inl rfl)
    | some 1, _ => exact .inr (.inr rfl)
    | some (k + 2), ho => exact absurd (ho _ rfl) (by omega)
  have hi' : i = 0 ∨ i = 1 := by omega
  simp only [not_runs_terminated]
  refine ⟨?_, ?_, ?_, ?_, ?_, ?_, ?_, ?_, ?_⟩
  · simp [vDefault, mayTerm, mayThrow, ndc]; exact fun h _ => h
  · simp [vFromCopy, mayTerm, mayThrow, ncc]; exact fun h _ => h
  · unfold vCopy; split
    · rfl
    · rcases cases2 hr with rfl | rfl | rfl <;> simp [onAlt, mayTerm, mayThrow, both, ncc] <;> simp +contextual
  · unfold vMove; split
    · rfl
    · rcases cases2 hr with rfl | rfl | rfl <;> simp [onAlt, mayTerm, mayThrow, both, nmc] <;> simp +contextual
  · unfold vDtor; split
    · rfl
    · rcases cases2 hl with rfl | rfl | rfl <;> simp [onAlt, mayTerm, mayThrow, both, nd] <;> simp +contextual
  · unfold vCopyAssign vCopyAssignSpec
    by_cases h : both (fun i => t.triv (.copyA i)) = true
    · simp [h, mayTerm, mayThrow]
    · simp only [Bool.not_eq_true] at h
      simp only [h, Bool.false_eq_true, if_false, Bool.false_or]
      rcases cases2 hl with rfl | rfl | rfl <;> rcases cases2 hr with rfl | rfl | rfl <;>
        simp +contextual [vAssignBody, onAlt, mayTerm, mayThrow, both, nca, nd, ncc]
  · unfold vMoveAssign vMoveAssignSpec
    by_cases h : both (fun i => t.triv (.moveA i)) = true
    · simp [h, mayTerm, mayThrow]
    · simp only [Bool.not_eq_true] at h
      simp only [h, Bool.false_eq_true, if_false, Bool.false_or]
      rcases cases2 hl with rfl | rfl | rfl <;> rcases cases2 hr with rfl | rfl | rfl <;>
        simp +contextual [vAssignBody, onAlt, mayTerm, mayThrow, both, nma, nd, nmc]
  · rcases hi' with rfl | rfl <;> rcases cases2 hl with rfl | rfl | rfl <;>
      simp [vAssignCopyVal, vAssignBody, onAlt, mayTerm, mayThrow, nca, nd, ncc] <;> simp +contextual
  · rcases hi' with rfl | rfl <;> rcases cases2 hl with rfl | rfl | rfl <;>
      simp [vAssignMoveVal, vAssignBody, onAlt, mayTerm, mayThrow, nma, nd, nmc] <;> simp +contextual

example : ¬ Runs (tyExcept [.copyC 1]) (vCopyAssign (tyExcept [.copyC 1]) (some 0) (some 1)) .terminated :=
  (variant2_noexcept _ (some 0) (some 1) (by simp [Alt]) (by simp [Alt]) 0 (by omega)).2.2.2.2.2.1

/-- Construction from an rvalue terminates exactly if the copy is nothrow and the move is not; in-place construction
exactly if `T(args...)` is nothrow and `T{args...}` is not; comparison exactly if the comparison of the alternative may
throw; hashing if the hash of the alternative may throw, or the variant is valueless. -/
theorem variant2_terminates_iff (t : Ty) (hd : t.Dtors) (i : Nat) (l r : Option Nat) :
    (Runs t (vFromMove t i) .terminated ↔ t.quiet (.copyC i) = true ∧ t.quiet (.moveC i) = false) ∧
    (Runs t (vInPlace t i) .terminated ↔ t.quiet (.args i) = true ∧ t.quiet (.brace i) = false) ∧
    (Runs t (vEq t l r) .terminated ↔ ∃ k, l = some k ∧ r = some k ∧ t.quiet (.eq k) = false) ∧
    (Runs t (vHash t l) .terminated ↔ l = none ∨ ∃ k, l = some k ∧ t.quiet (.hash k) = false) := by
  have h := hd i
  simp only [runs_terminated]
  refine ⟨?_, ?_, ?_, ?_⟩
  · simp [vFromMove, mayTerm, mayThrow, ncc, h]
  · simp [vInPlace, mayTerm, mayThrow, nac, h]
  · cases l <;> cases r <;> simp [vEq, mayTerm, mayThrow]
    split <;> simp_all [mayTerm, mayThrow]
    intro h'; omega
  · cases l <;> simp [vHash, mayTerm, mayThrow, Ty.quiet]

/-- Those promises are refuted. -/
theorem variant2_refuted :
    (∃ t : Ty, t.Wf ∧ t.Dtors ∧ Runs t (vFromMove t 0) .terminated) ∧
    (∃ t : Ty, t.Wf ∧ t.Dtors ∧ Runs t (vInPlace t 0) .terminated) ∧
    (∃ t : Ty, t.Wf ∧ t.Dtors ∧ Runs t (vHash t none) .terminated) ∧
    (∃ t : Ty, t.Wf ∧ t.Dtors ∧ Runs t (vSwap t (some 0) (some 0)) .terminated) := by
  refine ⟨⟨tyExcept [.moveC 0], by intro a h; simp [tyExcept] at h, tyExcept_dtors _ _ (by simp), (runs_terminated _ _).2 (by decide)⟩,
    ⟨tyExcept [.brace 0], by intro a h; simp [tyExcept] at h, tyExcept_dtors _ _ (by simp), (runs_terminated _ _).2 (by decide)⟩,
    ⟨tyExcept [], by intro a h; simp [tyExcept] at h, tyExcept_dtors _ _ (by simp), (runs_terminated _ _).2 (by decide)⟩,
    ⟨tyExcept [.moveC 0] [.moveA 0, .moveA 1], ?_, tyExcept_dtors _ _ (by simp), (runs_terminated _ _).2 (by decide)⟩⟩
  intro a h
  simp only [tyExcept, List.contains_cons, List.contains_nil, Bool.or_false, Bool.or_eq_true, beq_iff_eq] at h
  rcases h with rfl | rfl <;> decide

/-- `swap` keeps its promise unless both alternatives are trivially move-assignable. -/
theorem variant2_swap_partial (t : Ty) (hd : t.Dtors) (l r : Option Nat) (hl : Alt 2 l) (hr : Alt 2 r)
    (hn : (t.triv (.moveA 0) && t.triv (.moveA 1)) = false) : ¬ Runs t (vSwap t l r) .terminated := by
  have hv := fun a b ha hb => (not_runs_terminated _ _).1 (variant2_noexcept t a b ha hb 0 (by omega)).2.2.2.2.2.2.1
  have hm := (not_runs_terminated _ _).1 (variant2_noexcept t l l hl hl 0 (by omega)).2.2.2.1
  have h1 := hv l r hl hr
  have h2 := hv r l hr hl
  rw [not_runs_terminated]
  have hs : vMoveAssignSpec t = true → mayThrow t (vMove t l) = false ∧ mayThrow t (vMoveAssign t l r) = false ∧
      mayThrow t (vMoveAssign t r l) = false := by
    intro hs
    refine ⟨?_, by simp [vMoveAssign, hs, mayThrow], by simp [vMoveAssign, hs, mayThrow]⟩
    simp [vMoveAssignSpec, both, hn, nma, nd, nmc] at hs
    unfold vMove; split
    · rfl
    · simp [mayThrow, both, nmc, hs]
  unfold vSwap
  cases hsp : vMoveAssignSpec t
  · cases l <;> simp [mayTerm, hm, h1, h2, hd _]
  · obtain ⟨a, b, c⟩ := hs hsp
    cases l <;> simp [mayTerm, mayThrow, hm, h1, h2, hd _, a, b, c]

example : ¬ Runs (tyExcept [.moveA 0]) (vSwap (tyExcept [.moveA 0]) (some 0) (some 1)) .terminated :=
  variant2_swap_partial _ (tyExcept_dtors _ _ (by simp)) _ _ (by simp [Alt]) (by simp [Alt]) (by decide)

/-! ### `polymorphic_allocator` -/

/-- Default construction, copying, moving and destruction keep their promise for any number of alternatives, and so do
`allocate`, `deallocate` and the converting constructor while the allocator is not valueless. -/
theorem polymorphic_noexcept (t : Ty) (n : Nat) (o : Option Nat) (ho : Alt n o) (i : Nat) (hi : i < n) :
    ¬ Runs t (paDefault t) .terminated ∧ ¬ Runs t (paCopy t n o) .terminated ∧ ¬ Runs t (paMove t n o) .terminated ∧
    ¬ Runs t (paDtor t n o) .terminated ∧ ¬ Runs t (paAllocate t n (some i)) .terminated ∧
    ¬ Runs t (paDeallocate t n (some i)) .terminated ∧ ¬ Runs t (paConvert t n (some i)) .terminated := by
  simp only [not_runs_terminated]
  refine ⟨?_, ?_, ?_, ?_, ?_, ?_, ?_⟩
  · simp [paDefault, mayTerm, mayThrow, ndc]; exact fun h _ => h
  · cases o with
    | none => simp [paCopy, onAlt, mayTerm, mayThrow]
    | some k => simp [paCopy, onAlt, mayTerm, mayThrow]; intro h; have := each_at h (ho k rfl); simp [ncc] at this; exact this.1
  · cases o with
    | none => simp [paMove, onAlt, mayTerm, mayThrow]
    | some k => simp [paMove, onAlt, mayTerm, mayThrow]; intro h; have := each_at h (ho k rfl); simp [nmc] at this; exact this.1
  · cases o with
    | none => simp [paDtor, onAlt, mayTerm, mayThrow]
    | some k => simp [paDtor, onAlt, mayTerm, mayThrow]; intro h; have := each_at h (ho k rfl); simpa [nd] using this
  · simp [paAllocate, mayTerm, mayThrow]; intro h; exact each_at h hi
  · simp [paDeallocate, mayTerm, mayThrow]; intro h; exact each_at h hi
  · simp [paConvert, mayTerm, mayThrow]; intro h; have := each_at h hi; simp [nac] at this; exact this.1

example : ¬ Runs (tyExcept [.alloc 2]) (paAllocate (tyExcept [.alloc 2]) 3 (some 2)) .terminated :=
  (polymorphic_noexcept _ 3 (some 2) (by simp [Alt]) 2 (by omega)).2.2.2.2.1

/-- Copy assignment between different alternatives (three or more) terminates exactly if every alternative is nothrow
copy-assignable but the copy constructor of the new one is not nothrow. -/
theorem polymorphic_copy_assign_terminates_iff (t : Ty) (hd : t.Dtors) (n : Nat) (hn : n ≠ 2) (i j : Nat) (hij : i ≠ j)
    (_hi : i < n) (_hj : j < n) : Runs t (paCopyAssign t n (some i) (some j)) .terminated ↔
      (∀ k < n, t.quiet (.copyA k) = true) ∧ t.quiet (.copyC j) = false := by
  have h1 := hd i
  have h2 := hd j
  rw [runs_terminated]
  unfold paCopyAssign svCopyAssign
  simp only [if_neg hn, if_neg hij]
  have he : each n (nca t) = true ↔ ∀ k < n, t.quiet (.copyA k) = true := by simp [each, nca]
  split
  · simp [mayTerm, mayThrow, h1, ← he]
  · rename_i h
    simp [ncc, nmc, h2] at h
    simp [mayTerm, mayThrow, h1, h2, ← he, h.2]

example : Runs (tyExcept [.copyC 1]) (paCopyAssign (tyExcept [.copyC 1]) 3 (some 0) (some 1)) .terminated :=
  (polymorphic_copy_assign_terminates_iff _ (tyExcept_dtors _ _ (by simp)) 3 (by omega) 0 1 (by omega) (by omega) (by omega)).2
    ⟨by simp [tyExcept, Ty.quiet], by decide⟩

/-- Move assignment between different alternatives (three or more) terminates exactly if every alternative is nothrow
move-assignable but the move constructor of the new one is not nothrow. -/
theorem polymorphic_move_assign_terminates_iff (t : Ty) (hd : t.Dtors) (n : Nat) (hn : n ≠ 2) (i j : Nat) (hij : i ≠ j)
    (_hi : i < n) (hj : j < n) : Runs t (paMoveAssign t n (some i) (some j)) .terminated ↔
      (∀ k < n, t.quiet (.moveA k) = true) ∧ t.quiet (.moveC j) = false := by
  have h1 := hd i
  rw [runs_terminated]
  unfold paMoveAssign svMoveAssign
  simp only [if_neg hn]
  have he : each n (nma t) = true ↔ ∀ k < n, t.quiet (.moveA k) = true := by simp [each, nma]
  cases hc : t.quiet (.moveC j)
  · have : each n (fun i => nmc t i && nma t i) = false := by
      cases h : each n (fun i => nmc t i && nma t i)
      · rfl
      · have := each_at h hj; simp [nmc, hc] at this
    simp [this, vAssignBody, hij, mayTerm, mayThrow, h1, hc, he]
  · simp [vAssignBody, hij, mayTerm, mayThrow, h1, hc]

example : Runs (tyExcept [.moveC 1]) (paMoveAssign (tyExcept [.moveC 1]) 3 (some 0) (some 1)) .terminated :=
  (polymorphic_move_assign_terminates_iff _ (tyExcept_dtors _ _ (by simp)) 3 (by omega) 0 1 (by omega) (by omega) (by omega)).2
    ⟨by simp [tyExcept, Ty.quiet], by decide⟩

/-- Two alternatives, some not trivially assignable: the same through `variant2`. -/
theorem polymorphic_assign2_terminates_iff (t : Ty) (hd : t.Dtors) (i j : Nat) (hij : i ≠ j) (hi : i < 2) (hj : j < 2) :
    (both (fun i => t.triv (.copyA i)) = false →
      (Runs t (paCopyAssign t 2 (some i) (some j)) .terminated ↔
        t.quiet (.copyA 0) = true ∧ t.quiet (.copyA 1) = true ∧ t.quiet (.copyC j) = false)) ∧
    (both (fun i => t.triv (.moveA i)) = false →
      (Runs t (paMoveAssign t 2 (some i) (some j)) .terminated ↔
        t.quiet (.moveA 0) = true ∧ t.quiet (.moveA 1) = true ∧ t.quiet (.moveC j) = false)) := by
  have h0 := hd 0
  have h1 := hd 1
  simp only [runs_terminated]
  refine ⟨fun hn => ?_, fun hn => ?_⟩
  · have h2 : i = 0 ∧ j = 1 ∨ i = 1 ∧ j = 0 := by omega
    rcases h2 with ⟨rfl, rfl⟩ | ⟨rfl, rfl⟩ <;>
    simp only [paCopyAssign, vCopyAssign, vCopyAssignSpec, hn, Bool.false_eq_true, if_false, if_true, Bool.false_or] <;>
    simp [vAssignBody, mayTerm, mayThrow, each, List.range, List.range.loop, both, nca, nd, ncc, h0, h1] <;>
      cases t.quiet (.copyA 0) <;> cases t.quiet (.copyA 1) <;> cases t.quiet (.copyC 0) <;> cases t.quiet (.copyC 1) <;> simp
  · have h2 : i = 0 ∧ j = 1 ∨ i = 1 ∧ j = 0 := by omega
    rcases h2 with ⟨rfl, rfl⟩ | ⟨rfl, rfl⟩ <;>
    simp only [paMoveAssign, vMoveAssign, vMoveAssignSpec, hn, Bool.false_eq_true, if_false, if_true, Bool.false_or] <;>
    simp [vAssignBody, mayTerm, mayThrow, each, List.range, List.range.loop, both, nma, nd, nmc, h0, h1] <;>
      cases t.quiet (.moveA 0) <;> cases t.quiet (.moveA 1) <;> cases t.quiet (.moveC 0) <;> cases t.quiet (.moveC 1) <;> simp

example : Runs (tyExcept [.copyC 1]) (paCopyAssign (tyExcept [.copyC 1]) 2 (some 0) (some 1)) .terminated :=
  ((polymorphic_assign2_terminates_iff _ (tyExcept_dtors _ _ (by simp)) 0 1 (by omega) (by omega) (by omega)).1 (by decide)).2 ⟨by decide, by decide, by decide⟩

/-- A valueless allocator: `deallocate` and rebinding terminate exactly if they are declared `noexcept`, which allocators
usually are. -/
theorem polymorphic_valueless_terminates_iff (t : Ty) (n : Nat) :
    (Runs t (paDeallocate t n none) .terminated ↔ ∀ k < n, t.quiet (.dealloc k) = true) ∧
    (Runs t (paConvert t n none) .terminated ↔ ∀ k < n, t.quiet (.args k) = true ∧ t.quiet (.dtor k) = true) := by
  simp [runs_terminated, paDeallocate, paConvert, mayTerm, mayThrow, Ty.quiet, each, nac]

/-- The promises of copy assignment, move assignment and of `deallocate` on a valueless allocator are refuted. -/
theorem polymorphic_refuted :
    (∃ t : Ty, t.Wf ∧ t.Dtors ∧ Runs t (paCopyAssign t 3 (some 0) (some 1)) .terminated) ∧
    (∃ t : Ty, t.Wf ∧ t.Dtors ∧ Runs t (paMoveAssign t 3 (some 0) (some 1)) .terminated) ∧
    (∃ t : Ty, t.Wf ∧ t.Dtors ∧ Runs t (paCopyAssign t 2 (some 0) (some 1)) .terminated) ∧
    (∃ t : Ty, t.Wf ∧ t.Dtors ∧ Runs t (paDeallocate t 3 none) .terminated) :=
  ⟨⟨tyExcept [.copyC 1], by intro a h; simp [tyExcept] at h, tyExcept_dtors _ _ (by simp), (runs_terminated _ _).2 (by decide)⟩,
   ⟨tyExcept [.moveC 1], by intro a h; simp [tyExcept] at h, tyExcept_dtors _ _ (by simp), (runs_terminated _ _).2 (by decide)⟩,
   ⟨tyExcept [.copyC 1], by intro a h; simp [tyExcept] at h, tyExcept_dtors _ _ (by simp), (runs_terminated _ _).2 (by decide)⟩,
   ⟨tyExcept [], by intro a h; simp [tyExcept] at h, tyExcept_dtors _ _ (by simp), (runs_terminated _ _).2 (by decide)⟩⟩

/-- `swap` of three or more alternatives keeps its promise. -/
theorem polymorphic_swap_noexcept (t : Ty) (hd : t.Dtors) (n : Nat) (hn : n ≠ 2) (l r : Option Nat) (hl : Alt n l) (hr : Alt n r) :
    ¬ Runs t (paSwap t n l r) .terminated := by
  rw [not_runs_terminated]
  unfold paSwap svSwap
  simp only [if_neg hn]
  cases hs : svSwapSpec t n
  · cases l <;> cases r <;> simp [mayTerm, hd _]
    split <;> simp [mayTerm, hd _]
  · have hq : ∀ k < n, t.quiet (.moveC k) = true ∧ t.quiet (.swp k) = true := by
      intro k hk
      have := each_at hs hk
      simp [nmc, nsw] at this
      exact ⟨this.1.1, this.2⟩
    cases l with
    | none =>
      cases r with
      | none => simp [mayTerm, mayThrow]
      | some j => simp [mayTerm, mayThrow, hd _, hq j (hr j rfl)]
    | some i =>
      cases r with
      | none => simp [mayTerm, mayThrow, hd _, hq i (hl i rfl)]
      | some j =>
        have a := hq i (hl i rfl)
        have b := hq j (hr j rfl)
        by_cases hij : i = j
        · subst hij; simp [mayTerm, mayThrow, a]
        · simp [hij, mayTerm, mayThrow, hd _, a, b]

example : ¬ Runs (tyExcept [.moveC 2]) (paSwap (tyExcept [.moveC 2]) 3 (some 0) (some 2)) .terminated :=
  polymorphic_swap_noexcept _ (tyExcept_dtors _ _ (by simp)) 3 (by omega) _ _ (by simp [Alt]) (by simp [Alt])

/-! ### `inplace_polymorphic`, the mutexes, the guards, `integral_template_variant` -/

/-- Copying, moving and default construction of `inplace_polymorphic` keep their promise (the class requires `noexcept`
destructors); in-place construction and `emplace` terminate exactly if `T(args...)` is nothrow and `T{args...}` is not. -/
theorem inplace_noexcept (t : Ty) (hd : t.Dtors) (self other : Option Nat) (i : Nat) :
    ¬ Runs t (ipDefault t) .terminated ∧ ¬ Runs t (ipCopyAssign t self other) .terminated ∧
    ¬ Runs t (ipMoveAssign t self other) .terminated ∧
    (Runs t (ipInPlace t i) .terminated ↔ t.quiet (.args i) = true ∧ t.quiet (.brace i) = false) ∧
    (Runs t (ipEmplace t i self) .terminated ↔ t.quiet (.args i) = true ∧ t.quiet (.brace i) = false) := by
  simp only [runs_terminated, Bool.not_eq_true]
  refine ⟨?_, ?_, ?_, ?_, ?_⟩
  · simp [ipDefault, mayTerm, mayThrow, ndc]; exact fun h _ => h
  · cases self <;> cases other <;> simp [ipCopyAssign, ipDrop, onAlt, mayTerm, mayThrow, hd _]
  · cases self <;> cases other <;> simp [ipMoveAssign, ipDrop, onAlt, mayTerm, mayThrow, hd _]
  · simp [ipInPlace, mayTerm, mayThrow, nac, hd i]
  · cases self <;> simp [ipEmplace, ipDrop, onAlt, mayTerm, mayThrow, nac, hd _]

example : ¬ Runs (tyExcept [.copyTo]) (ipCopyAssign (tyExcept [.copyTo]) (some 0) (some 1)) .terminated :=
  (inplace_noexcept _ (tyExcept_dtors _ _ (by simp)) _ _ 0).2.1

/-- The constructors of `mutex` and `shared_mutex` ask only about the value: they terminate exactly if the value is
constructed without exceptions and the constructor of the mutex type may throw, or (in place) if `T(args...)` is nothrow
and `T{args...}` is not. -/
theorem mutex_ctor_terminates_iff (t : Ty) (hd : t.Dtors) :
    (Runs t (mtxDefault t) .terminated ↔ t.quiet (.dflt 0) = true ∧ t.quiet (.dflt 1) = false) ∧
    (Runs t (mtxFromCopy t) .terminated ↔ t.quiet (.copyC 0) = true ∧ t.quiet (.dflt 1) = false) ∧
    (Runs t (mtxFromMove t) .terminated ↔ t.quiet (.moveC 0) = true ∧ t.quiet (.dflt 1) = false) ∧
    (Runs t (mtxInPlace t) .terminated ↔
      t.quiet (.args 0) = true ∧ (t.quiet (.brace 0) = false ∨ t.quiet (.dflt 1) = false)) := by
  have h := hd 0
  simp only [runs_terminated]
  refine ⟨?_, ?_, ?_, ?_⟩ <;>
    simp +contextual [mtxDefault, mtxFromCopy, mtxFromMove, mtxInPlace, mtxCtor, mayTerm, mayThrow, ndc, ncc, nmc, nac, h]

/-- With a mutex type whose constructor is `noexcept` (as that of `std::mutex`), construction from nothing, a copy or a
move keeps its promise. -/
theorem mutex_ctor_partial (t : Ty) (hd : t.Dtors) (hm : t.quiet (.dflt 1) = true) :
    ¬ Runs t (mtxDefault t) .terminated ∧ ¬ Runs t (mtxFromCopy t) .terminated ∧ ¬ Runs t (mtxFromMove t) .terminated := by
  obtain ⟨h1, h2, h3, _⟩ := mutex_ctor_terminates_iff t hd
  rw [h1, h2, h3]
  simp [hm]

example : ¬ Runs (tyExcept [.copyC 0]) (mtxFromCopy (tyExcept [.copyC 0])) .terminated :=
  (mutex_ctor_partial _ (tyExcept_dtors _ _ (by simp)) (by decide)).2.1

/-- `shared_mutex` over `std::shared_mutex`, whose constructor the standard lets throw, breaks its promise; so does in-place
construction of either. -/
theorem mutex_ctor_refuted :
    (∃ t : Ty, t.Wf ∧ t.Dtors ∧ Runs t (mtxDefault t) .terminated) ∧
    (∃ t : Ty, t.Wf ∧ t.Dtors ∧ t.quiet (.dflt 1) = true ∧ Runs t (mtxInPlace t) .terminated) :=
  ⟨⟨tyExcept [.dflt 1], by intro a h; simp [tyExcept] at h, tyExcept_dtors _ _ (by simp), (runs_terminated _ _).2 (by decide)⟩,
   ⟨tyExcept [.brace 0], by intro a h; simp [tyExcept] at h, tyExcept_dtors _ _ (by simp), by decide, (runs_terminated _ _).2 (by decide)⟩⟩

/-- The constructors of the scope guards keep their promise. -/
theorem guard_ctor_noexcept (t : Ty) : ¬ Runs t (guardMove t) .terminated ∧ ¬ Runs t (guardCopy t) .terminated := by
  simp only [not_runs_terminated]
  simp [guardMove, guardCopy, mayTerm, mayThrow, nmc, ncc]
  exact ⟨fun h _ => h, fun h _ => h⟩

/-- `integral_template_variant`: everything but the copy constructor keeps its promise, for any number of alternatives; the
copy constructor terminates exactly if the held alternative's copy constructor may throw. -/
theorem integral_variant_noexcept (t : Ty) (hd : t.Dtors) (n : Nat) (self other : Option Nat) (hs : Alt n self)
    (ho : Alt n other) (i : Nat) :
    ¬ Runs t (itvFromCopy t i) .terminated ∧ ¬ Runs t (itvFromMove t i) .terminated ∧
    ¬ Runs t (itvInPlace t i) .terminated ∧ ¬ Runs t (itvMove t n other) .terminated ∧
    ¬ Runs t (itvCopyAssign t n self other) .terminated ∧ ¬ Runs t (itvMoveAssign t n self other) .terminated ∧
    (Runs t (itvCopy t other) .terminated ↔ ∃ k, other = some k ∧ t.quiet (.copyC k) = false) := by
  simp only [runs_terminated, Bool.not_eq_true]
  refine ⟨?_, ?_, ?_, ?_, ?_, ?_, ?_⟩
  · simp [itvFromCopy, mayTerm, mayThrow, ncc, hd i]
  · simp [itvFromMove, mayTerm, mayThrow, nmc, hd i]
  · simp [itvInPlace, mayTerm, mayThrow, nac, hd i]
  · cases other with
    | none => simp [itvMove, onAlt, mayTerm, mayThrow]
    | some k => simp [itvMove, onAlt, mayTerm, mayThrow]; intro h; have := each_at h (ho k rfl); simp [nmc] at this; exact this.1
  · unfold itvCopyAssign
    split
    · rfl
    · cases self <;> cases other <;> simp [svCopyAssign, mayTerm]
      · split <;> simp [mayTerm, hd _]
      · split
        · rfl
        · split <;> simp [mayTerm, hd _]
  · unfold itvMoveAssign svMoveAssign
    cases he : each n (fun i => nmc t i && nma t i)
    · cases self <;> cases other <;> simp [vAssignBody, onAlt, mayTerm]
      split <;> simp [mayTerm]
    · have hq : ∀ k < n, t.quiet (.moveC k) = true ∧ t.quiet (.moveA k) = true := by
        intro k hk
        have := each_at he hk
        simp [nmc, nma] at this
        exact ⟨this.1.1, this.2⟩
      cases self with
      | none =>
        cases other with
        | none => simp [vAssignBody, onAlt, mayTerm, mayThrow]
        | some j => simp [vAssignBody, onAlt, mayTerm, mayThrow, hq j (ho j rfl)]
      | some k =>
        cases other with
        | none => simp [vAssignBody, mayTerm, mayThrow, hd _]
        | some j =>
          by_cases hij : k = j
          · subst hij; simp [vAssignBody, mayTerm, mayThrow, hq k (hs k rfl)]
          · simp [vAssignBody, hij, mayTerm, mayThrow, hd _, hq j (ho j rfl)]
  · cases other <;> simp [itvCopy, onAlt, mayTerm, mayThrow]

example : ¬ Runs (tyExcept [.moveC 1]) (itvMoveAssign (tyExcept [.moveC 1]) 4 (some 0) (some 1)) .terminated :=
  (integral_variant_noexcept _ (tyExcept_dtors _ _ (by simp)) 4 (some 0) (some 1) (by simp [Alt]) (by simp [Alt]) 0).2.2.2.2.2.1

end Verif.Noexcept
