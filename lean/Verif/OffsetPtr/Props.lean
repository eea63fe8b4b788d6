import Verif.OffsetPtr.Model

/-! Property C68 of `offset_ptr_stl_allocator` (polymorphic_allocator.hpp). -/
namespace Verif.OffsetPtr

variable {A : Type}

/-- The address is not inside of the pointer object (8 bytes) at `self`, except for its beginning. -/
def Outside (p self : Addr) : Prop := p = self ∨ 8 ≤ (p - self).toNat

example : Outside 0x1000 0x2000 ∧ Outside 0x2000 0x1000 ∧ ¬ Outside 0x1001 0x1000 := by simp [Outside]

theorem make_get_iff (self p : Addr) : (OPtr.make self p).get = p ↔ p = 0 ∨ p ≠ self + 1 := by
  unfold OPtr.make OPtr.get
  by_cases hp : p = 0
  · simp [hp]
  · simp only [hp, if_false, false_or]
    by_cases h : p - self = 1
    · rw [if_pos h]
      have : p = self + 1 := by rw [← h]; bv_omega
      simp only [this, ne_eq, not_true_eq_false, iff_false]
      intro h0
      exact hp (this.trans h0.symm)
    · rw [if_neg h]
      constructor
      · intro _ h2
        exact h (by rw [h2]; bv_omega)
      · intro _
        bv_omega

/-- **C68.** An `offset_ptr` gives back the pointer it was made of, unless that points into the `offset_ptr` itself. -/
theorem pointer_round_trip {self p : Addr} (h : Outside p self) : (OPtr.make self p).get = p := by
  rw [make_get_iff]
  right
  rcases h with rfl | h
  · bv_omega
  · rintro rfl
    have : (self + 1 - self) = 1 := by bv_omega
    rw [this] at h
    simp at h

example : (OPtr.make 0x1000 0x5008).get = 0x5008 := pointer_round_trip (by simp [Outside])

/-- The result of copying an `offset_ptr` from place to place. -/
def copies (ptr : OPtr) : List Addr → OPtr
  | [] => ptr
  | self :: places => copies (ptr.copyTo self) places

/-- **C68.** However often it is copied from place to place. -/
theorem pointer_copies (ptr : OPtr) (places : List Addr) (h : ∀ self ∈ places, Outside ptr.get self) :
    (copies ptr places).get = ptr.get := by
  induction places generalizing ptr with
  | nil => rfl
  | cons self places ih =>
    have h1 : (ptr.copyTo self).get = ptr.get := pointer_round_trip (h self (by simp))
    rw [copies, ih, h1]
    intro s hs
    rw [h1]
    exact h s (List.mem_cons_of_mem _ hs)

example : (copies (OPtr.make 0x1000 0x5008) [0x3000, 0x9000]).get = 0x5008 := by decide

/-- **C68.** If the memory with the pointer and what it points to is mapped elsewhere, the pointer points to the new place; a null pointer
stays a null pointer. -/
theorem pointer_relocate {self p : Addr} (δ : BitVec 64) (h : Outside p self) :
    (p ≠ 0 → ((OPtr.make self p).relocate δ).get = p + δ) ∧ ((OPtr.make self 0).relocate δ).get = 0 := by
  constructor
  · intro hp
    have h1 : p - self ≠ 1 := by
      rcases h with rfl | h
      · bv_omega
      · intro e; rw [e] at h; simp at h
    simp only [OPtr.make, if_neg hp, OPtr.relocate, OPtr.get, if_neg h1]
    bv_omega
  · simp [OPtr.make, OPtr.relocate, OPtr.get]

example : ((OPtr.make 0x1000 0x5008).relocate 0x100000).get = 0x105008 := by decide

/-- A conforming allocator: equal ones can free each other's memory, as can conversions. -/
structure Conforming (U : Upstream A) : Prop where
  eqv : ∀ a b, U.eqv a b = true → U.src a = U.src b
  conv : ∀ a, U.src (U.conv a) = U.src a

def exampleUpstream : Upstream Nat :=
  ⟨(· == ·), id, id, fun _ => 7, id, ⟨false, true, false, false⟩, true, true, fun _ => false, fun _ => false⟩

theorem exampleUpstream_conforming : Conforming exampleUpstream := ⟨by simp [exampleUpstream], by simp [exampleUpstream]⟩

/-- **C68.** Memory is taken from the wrapped allocator, and the pointer points to it. -/
theorem allocate_forwards (U : Upstream A) (a : Alloc A) (n : Nat) {p self : Addr} {h h' : Heap} {ptr : OPtr} (ho : Outside p self)
    (e : allocate U a n p self h = some (h', ptr)) :
    ptr.get = p ∧ h' p = some (U.src (upstreamAllocator a), n) ∧ ∀ x, x ≠ p → h' x = h x := by
  unfold allocate at e
  split at e
  · cases e
  · injection e with e
    injection e with e1 e2
    subst e1 e2
    exact ⟨pointer_round_trip ho, by simp [upstreamAllocator], fun x hx => by simp [hx]⟩

example : (allocate exampleUpstream ⟨3⟩ 4 0x5000 0x1000 (fun _ => none)).map (fun r => (r.1 0x5000, r.2.get)) =
    some (some (3, 4), 0x5000) := by decide

/-- **C68.** What was allocated can be deallocated with any copy of the pointer, by any allocator equal to the one that allocated, or
converted from an equal one, whatever happened to other memory in between, and the block is returned to where it came from. -/
theorem deallocate_returns {U : Upstream A} (hU : Conforming U) {a b : Alloc A} (n : Nat) {p self : Addr} {h h1 h2 : Heap} {ptr : OPtr}
    (ho : Outside p self) (e : allocate U a n p self h = some (h1, ptr)) (hsame : h2 p = h1 p) (places : List Addr)
    (hp : ∀ s ∈ places, Outside p s) (hab : ∃ b', eq U a b' = true ∧ (b = b' ∨ b = convert U b')) :
    ∃ h3, deallocate U b (copies ptr places) n h2 = some h3 ∧ h3 p = none ∧ ∀ x, x ≠ p → h3 x = h2 x := by
  obtain ⟨e1, e2, -⟩ := allocate_forwards U a n ho e
  have e3 : (copies ptr places).get = p := by
    rw [pointer_copies _ _ (by rw [e1]; exact hp), e1]
  have hsrc : U.src b.inner = U.src a.inner := by
    obtain ⟨b', hb', rfl | rfl⟩ := hab
    · exact (hU.eqv _ _ hb').symm
    · exact (hU.conv _).trans (hU.eqv _ _ hb').symm
  unfold deallocate
  rw [e3, hsame, e2, hsrc, if_pos (by rfl)]
  exact ⟨_, rfl, by simp, fun x hx => by simp [hx]⟩

example : ∃ h1 ptr h3, allocate exampleUpstream ⟨3⟩ 4 0x5000 0x1000 (fun _ => none) = some (h1, ptr) ∧
    deallocate exampleUpstream (convert exampleUpstream ⟨3⟩) (copies ptr [0x2000, 0x3000]) 4 h1 = some h3 := by
  refine ⟨fun x => if x = 0x5000 then some (3, 4) else none, OPtr.make 0x1000 0x5000, ?_⟩
  obtain ⟨h3, h, -⟩ := deallocate_returns exampleUpstream_conforming (a := ⟨3⟩) (b := convert exampleUpstream ⟨3⟩) 4 (p := 0x5000)
    (self := 0x1000) (h := fun _ => none)
    (h2 := fun x => if x = 0x5000 then some (3, 4) else none) (by simp [Outside]) rfl rfl [0x2000, 0x3000] (by simp [Outside]) ⟨⟨3⟩, rfl, .inr rfl⟩
  exact ⟨h3, rfl, h⟩

/-- **C68.** The wrong allocator, or the wrong size, is as wrong as for the wrapped allocator. -/
theorem deallocate_iff (U : Upstream A) (a : Alloc A) (ptr : OPtr) (n : Nat) (h : Heap) :
    (∃ h', deallocate U a ptr n h = some h') ↔ h ptr.get = some (U.src (upstreamAllocator a), n) := by
  unfold deallocate upstreamAllocator
  split <;> simp_all

example : deallocate exampleUpstream ⟨4⟩ (OPtr.make 0x1000 0x5000) 4 (fun x => if x = 0x5000 then some (3, 4) else none) = none := by decide

/-- **C68.** Comparison, conversion, selection for copies of containers, swapping and traits are those of the wrapped allocator. -/
theorem wrapper_transparent (U : Upstream A) (a b : Alloc A) :
    eq U a b = U.eqv (upstreamAllocator a) (upstreamAllocator b) ∧
    upstreamAllocator (convert U a) = U.conv (upstreamAllocator a) ∧
    upstreamAllocator (selectOnCopy U a) = U.socc (upstreamAllocator a) ∧
    upstreamAllocator (swap a b).1 = upstreamAllocator b ∧ upstreamAllocator (swap a b).2 = upstreamAllocator a ∧
    traits U = U.traits := ⟨rfl, rfl, rfl, rfl, rfl, rfl⟩

example : eq exampleUpstream ⟨3⟩ ⟨3⟩ = true ∧ upstreamAllocator (selectOnCopy exampleUpstream ⟨3⟩) = 7 := by decide

/-- What `noexcept` promises is kept: operations said not to throw do not. -/
structure Honest (U : Upstream A) : Prop where
  copy : U.nothrowCopy = true → ∀ a, U.copyThrows a = false
  move : U.nothrowMove = true → ∀ a, U.moveThrows a = false

/-- **C68, partial**: copying and moving the wrapper copies and moves the wrapped allocator, and never terminates the program, if copies may throw
iff moves may, or if neither does (which the standard demands of allocators). Missing: other wrapped allocators, see below. -/
theorem copy_move_partial {U : Upstream A} (hU : Honest U)
    (h : U.nothrowCopy = U.nothrowMove ∨ ∀ a, U.copyThrows a = false ∧ U.moveThrows a = false) (a : Alloc A) :
    copyCtor U a = (if U.copyThrows a.inner then .threw else .ok a) ∧
    moveCtor U a = (if U.moveThrows a.inner then .threw else .ok (a, ⟨U.movedFrom a.inner⟩)) := by
  have h1 := hU.copy
  have h2 := hU.move
  unfold copyCtor moveCtor guarded
  rcases h with h | h
  · cases hc : U.copyThrows a.inner <;> cases hm : U.moveThrows a.inner <;> cases nc : U.nothrowCopy <;> cases nm : U.nothrowMove <;> simp_all
  · simp [(h a.inner).1, (h a.inner).2]

example : copyCtor exampleUpstream ⟨3⟩ = .ok ⟨3⟩ ∧ moveCtor exampleUpstream ⟨3⟩ = .ok (⟨3⟩, ⟨3⟩) := by decide

example : Honest exampleUpstream := ⟨fun _ _ => rfl, fun _ _ => rfl⟩

/-- **C68.** Making a wrapper of an allocator, by copying or moving it, ends as copying or moving that allocator does. -/
theorem from_upstream {U : Upstream A} (hU : Honest U) (a : A) :
    fromUpstream U a = (if U.copyThrows a then .threw else .ok ⟨a⟩) ∧ fromUpstreamMove U a = (if U.moveThrows a then .threw else .ok ⟨a⟩) := by
  have h1 := hU.copy
  have h2 := hU.move
  unfold fromUpstream fromUpstreamMove guarded
  cases hc : U.copyThrows a <;> cases hm : U.moveThrows a <;> cases nc : U.nothrowCopy <;> cases nm : U.nothrowMove <;> simp_all

example : fromUpstream exampleUpstream 3 = .ok ⟨3⟩ ∧ fromUpstreamMove exampleUpstream 3 = .ok ⟨3⟩ := by decide

/-- **C68, refuted** in general: the `noexcept` specifications of the copy and the move constructor are exchanged, so a throwing copy terminates
the program if moves do not throw. Making a wrapper of the wrapped allocator reports the exception. -/
theorem copy_refuted : ∃ (U : Upstream Unit), Honest U ∧ copyCtor U ⟨()⟩ = .terminated ∧ fromUpstream U () = .threw :=
  ⟨⟨fun _ _ => true, fun _ => 0, id, id, id, ⟨false, false, false, true⟩, false, true, fun _ => true, fun _ => false⟩,
    ⟨by simp, by simp⟩, rfl, rfl⟩

end Verif.OffsetPtr
